import Verif.Lemmas.Serendipity.Interior
import Verif.Lemmas.Serendipity.Newton

/-! # Edge functions of direct serendipity elements -/

set_option linter.unusedSectionVars false

namespace FInAT.Serendipity

open FInAT.Spec.Serendipity

variable {K : Type} [Field K] [LinearOrder K] [IsStrictOrderedRing K]

/-! ## Nodes on an edge -/

/-- Parameter of node `i` of an edge. -/
def param (r i : Nat) : K := ((i : K) + 1) / (r : K)

theorem nodes1d_length (r : Nat) : (nodes1d r : List K).length = r - 1 := by simp [nodes1d]

theorem nodes1d_get {r i : Nat} (hi : i < r - 1) : (nodes1d r : List K)[i]? = some (param r i) := by
  rw [nodes1d, List.getElem?_map, List.getElem?_range' hi]
  simp only [Option.map_some, param]
  push_cast
  congr 2
  ring

theorem nodes1d_getD {r i : Nat} (hi : i < r - 1) : (nodes1d r : List K).getD i 0 = param r i := by
  rw [List.getD_eq_getElem?_getD, nodes1d_get hi]; rfl

theorem param_inj {r i j : Nat} (hr : r ≠ 0) (h : (param r i : K) = param r j) : i = j := by
  have hr' : (r : K) ≠ 0 := by exact_mod_cast hr
  simp only [param] at h
  rw [div_left_inj' hr'] at h
  have : (i : K) = j := by linear_combination h
  exact_mod_cast this

theorem param_pos {r i : Nat} (hi : i < r - 1) : (0 : K) < param r i := by
  have : (0 : K) < r := by exact_mod_cast (by omega : 0 < r)
  unfold param
  positivity

theorem param_lt {r i : Nat} (hi : i < r - 1) : (param r i : K) < 1 := by
  have h : (0 : K) < r := by exact_mod_cast (by omega : 0 < r)
  unfold param
  rw [div_lt_one h]
  exact_mod_cast (by omega : i + 1 < r)

theorem edgeNodes_get (vs : Fin 4 → Pt K) {r i : Nat} (e : Fin 4) (hi : i < r - 1) :
    (edgeNodes vs r e)[i]? = some (edgePt vs e (param r i)) := by
  rw [edgeNodes, List.getElem?_map, nodes1d_get hi]; rfl

theorem edgeNodes_getD (vs : Fin 4 → Pt K) {r i : Nat} (e : Fin 4) (hi : i < r - 1) (d : Pt K) :
    (edgeNodes vs r e).getD i d = edgePt vs e (param r i) := by
  rw [List.getD_eq_getElem?_getD, edgeNodes_get vs e hi]; rfl

theorem edgeNodes_length (vs : Fin 4 → Pt K) (r : Nat) (e : Fin 4) :
    (edgeNodes vs r e).length = r - 1 := by simp [edgeNodes, nodes1d_length]

/-! ## The functions that are one on an edge and zero on the opposite edge -/

theorem rEdge_eq (vs : Fin 4 → Pt K) (e : Fin 4) {x : Pt K}
    (h : lam vs e x + lam vs (opposite e) x ≠ 0) :
    rEdge vs e x = lam vs (opposite e) x / (lam vs e x + lam vs (opposite e) x) := by
  rcases fin4 e with rfl | rfl | rfl | rfl
  · change lam vs 0 x + lam vs 1 x ≠ 0 at h
    change (1 - rV vs x) / 2 = lam vs 1 x / (lam vs 0 x + lam vs 1 x)
    rw [rV]; field_simp; ring
  · change lam vs 1 x + lam vs 0 x ≠ 0 at h
    change (1 + rV vs x) / 2 = lam vs 0 x / (lam vs 1 x + lam vs 0 x)
    rw [add_comm] at h
    rw [rV, add_comm (lam vs 1 x)]; field_simp; ring
  · change lam vs 2 x + lam vs 3 x ≠ 0 at h
    change (1 - rH vs x) / 2 = lam vs 3 x / (lam vs 2 x + lam vs 3 x)
    rw [rH]; field_simp; ring
  · change lam vs 3 x + lam vs 2 x ≠ 0 at h
    change (1 + rH vs x) / 2 = lam vs 2 x / (lam vs 3 x + lam vs 2 x)
    rw [add_comm] at h
    rw [rH, add_comm (lam vs 3 x)]; field_simp; ring

theorem opposite_opposite (e : Fin 4) : opposite (opposite e) = e := by revert e; decide

section

variable {vs : Fin 4 → Pt K} {σ : K} (h : Oriented vs σ)
include h

theorem Oriented.rEdge_own (e : Fin 4) {s : K} (h0 : 0 ≤ s) (h1 : s ≤ 1) :
    rEdge vs e (edgePt vs e s) = 1 := by
  have ho := ne_zero_of_mul_pos (h.opposite_pos e h0 h1)
  rw [rEdge_eq, lam_own_edge, zero_add, div_self ho]
  rwa [lam_own_edge, zero_add]

theorem Oriented.rEdge_opposite (e : Fin 4) {s : K} (h0 : 0 ≤ s) (h1 : s ≤ 1) :
    rEdge vs e (edgePt vs (opposite e) s) = 0 := by
  have ho := ne_zero_of_mul_pos (h.opposite_pos (opposite e) h0 h1)
  rw [opposite_opposite] at ho
  rw [rEdge_eq, lam_own_edge, zero_div]
  rwa [lam_own_edge, add_zero]

theorem Oriented.tangent_ne (e : Fin 4) :
    (tangent vs e).1 * (tangent vs e).1 + (tangent vs e).2 * (tangent vs e).2 ≠ 0 := by
  intro h0
  have a := mul_self_nonneg (tangent vs e).1
  have b := mul_self_nonneg (tangent vs e).2
  have e1 : (tangent vs e).1 = 0 := by
    have : (tangent vs e).1 * (tangent vs e).1 = 0 := by linarith
    exact mul_self_eq_zero.1 this
  have e2 : (tangent vs e).2 = 0 := by
    have : (tangent vs e).2 * (tangent vs e).2 = 0 := by linarith
    exact mul_self_eq_zero.1 this
  have e3 : vs (ends e).2 = vs (ends e).1 := by
    simp only [tangent] at e1 e2
    ext
    · linear_combination e1
    · linear_combination e2
  have n1 : ∃ o, onEdge (ends e).1 o = true ∧ onEdge (ends e).2 o = false := by
    clear h0 a b e1 e2 e3; revert e; decide
  obtain ⟨o, o1, o2⟩ := n1
  have p := h.vertex_pos o2
  rw [e3, lam_vertex_on vs o1, mul_zero] at p
  exact lt_irrefl _ p

/-- The parameter is recovered by projection on the tangent. -/
theorem Oriented.project (e : Fin 4) (s : K) :
    (((edgePt vs e s).1 * (tangent vs e).1 + (edgePt vs e s).2 * (tangent vs e).2)
      - ((vs (ends e).1).1 * (tangent vs e).1 + (vs (ends e).1).2 * (tangent vs e).2))
      / (((vs (ends e).2).1 * (tangent vs e).1 + (vs (ends e).2).2 * (tangent vs e).2)
      - ((vs (ends e).1).1 * (tangent vs e).1 + (vs (ends e).1).2 * (tangent vs e).2)) = s := by
  have ht := h.tangent_ne e
  rw [div_eq_iff]
  · simp only [edgePt, tangent]; ring
  · intro h0
    apply ht
    simp only [tangent] at h0 ⊢
    linear_combination h0

end

/-! ## Interpolation on an edge -/

/-- The value that `p` takes at node `j`. -/
def pval (vs : Fin 4 → Pt K) (r : Nat) (e : Fin 4) (s : K) : K :=
  -1 * tunnelR vs e (edgePt vs e s) ^ (r - 2) / lam vs (opposite e) (edgePt vs e s)

theorem mem_strike {n i j : Nat} : j ∈ strike n i ↔ j < n ∧ j ≠ i := by
  simp only [strike, List.mem_filter, List.mem_range, Bool.not_eq_true', beq_eq_false_iff_ne]
  exact and_congr_right fun _ => ne_comm

theorem strike_length {n i : Nat} (hi : i < n) : (strike n i).length = n - 1 := by
  have h := List.length_eq_length_filter_add (l := List.range n) fun j => !(i == j)
  have h2 : ((List.range n).filter fun j => !!(i == j)).length = 1 := by
    have : ((List.range n).filter fun j => !!(i == j)) = [i] := by
      simp only [Bool.not_not]
      have := List.filter_beq (l := List.range n) i
      have e : (List.range n).filter (fun j => i == j) = (List.range n).filter (· == i) :=
        List.filter_congr fun j _ => by simp [eq_comm]
      rw [e, this, List.count_eq_one_of_mem List.nodup_range (List.mem_range.2 hi)]
      rfl
    rw [this]; rfl
  have h3 : ((List.range n).filter fun j => !(i == j)) = strike n i := rfl
  rw [h2, List.length_range, h3] at h
  omega

/-- The nodes and values that remain, as lists. -/
theorem edgeP_eq {vs : Fin 4 → Pt K} {σ : K} (h : Oriented vs σ) (r : Nat) (e : Fin 4) (i : Nat)
    (s : K) : edgeP vs r e i (edgePt vs e s)
      = newtonPoly ((strike (r - 1) i).map (param r))
          ((strike (r - 1) i).map fun j => pval vs r e (param r j)) s := by
  unfold edgeP
  simp only [nodes1d_length, h.project, List.map_map]
  congr 1
  · apply List.map_congr_left
    intro j hj
    exact nodes1d_getD (mem_strike.1 hj).1
  · apply List.map_congr_left
    intro j hj
    simp only [Function.comp]
    rw [edgeNodes_getD vs e (mem_strike.1 hj).1]
    rfl

theorem strike_nodup (n i : Nat) : (strike n i).Nodup := List.nodup_range.filter _

theorem edgeP_node {vs : Fin 4 → Pt K} {σ : K} (h : Oriented vs σ) {r : Nat} (hr : 2 ≤ r)
    (e : Fin 4) {i j : Nat} (hj : j < r - 1) (hij : j ≠ i) :
    edgeP vs r e i (edgePt vs e (param r j)) = pval vs r e (param r j) := by
  rw [edgeP_eq h]
  obtain ⟨k, hk, e1⟩ := List.mem_iff_getElem.1 (mem_strike.2 ⟨hj, hij⟩)
  have hn : ((strike (r - 1) i).map (param r : Nat → K)).Nodup :=
    (strike_nodup _ _).map fun a b hab => param_inj (by omega) hab
  have := newtonPoly_interpolates _ ((strike (r - 1) i).map fun j => pval vs r e (param r j)) hn k
    (by simpa using hk)
  rw [List.getD_eq_getElem _ _ (by simpa using hk), List.getD_eq_getElem _ _ (by simpa using hk),
    List.getElem_map, List.getElem_map, e1] at this
  exact this

/-! ## Edge functions before normalisation -/

theorem edge_cases (e o : Fin 4) :
    o = e ∨ o = opposite e ∨ o = adjacent e 0 ∨ o = adjacent e 1 := by revert e o; decide

theorem edgePre_of_adjacent (vs : Fin 4 → Pt K) (r : Nat) (e : Fin 4) (i : Nat) {x : Pt K}
    (h : lam vs (adjacent e 0) x = 0 ∨ lam vs (adjacent e 1) x = 0) : edgePre vs r e i x = 0 := by
  unfold edgePre
  rcases h with h | h <;> split <;> rw [h] <;> ring

theorem edgePre_vertex (vs : Fin 4 → Pt K) (r : Nat) (e : Fin 4) (i : Nat) (v : Fin 4) :
    edgePre vs r e i (vs v) = 0 := by
  apply edgePre_of_adjacent
  have : onEdge v (adjacent e 0) = true ∨ onEdge v (adjacent e 1) = true := by
    revert e v; decide
  exact this.imp (lam_vertex_on vs) (lam_vertex_on vs)

section

variable {vs : Fin 4 → Pt K} {σ : K} (h : Oriented vs σ)
include h

theorem Oriented.edgePre_other (r : Nat) {e o : Fin 4} (ho : o ≠ e) (i : Nat) {s : K} (h0 : 0 ≤ s)
    (h1 : s ≤ 1) : edgePre vs r e i (edgePt vs o s) = 0 := by
  rcases edge_cases e o with rfl | rfl | rfl | rfl
  · exact absurd rfl ho
  · have h2 := h.rEdge_opposite e h0 h1
    unfold edgePre
    split
    · rw [h2, mul_zero]
    · rw [h2, lam_own_edge]; ring
  · exact edgePre_of_adjacent vs r e i (.inl (lam_own_edge vs _ s))
  · exact edgePre_of_adjacent vs r e i (.inr (lam_own_edge vs _ s))

theorem Oriented.edgePre_own {r : Nat} (hr : 3 ≤ r) (e : Fin 4) (i : Nat) {s : K} (h0 : 0 ≤ s)
    (h1 : s ≤ 1) : edgePre vs r e i (edgePt vs e s)
      = lam vs (adjacent e 0) (edgePt vs e s) * lam vs (adjacent e 1) (edgePt vs e s) *
        (lam vs (opposite e) (edgePt vs e s) * edgeP vs r e i (edgePt vs e s)
          + tunnelR vs e (edgePt vs e s) ^ (r - 2)) := by
  unfold edgePre
  rw [if_neg (by omega), h.rEdge_own e h0 h1, mul_one]

theorem Oriented.edgePre_two (e : Fin 4) (i : Nat) {s : K} (h0 : 0 ≤ s) (h1 : s ≤ 1) :
    edgePre vs 2 e i (edgePt vs e s)
      = lam vs (adjacent e 0) (edgePt vs e s) * lam vs (adjacent e 1) (edgePt vs e s) := by
  unfold edgePre
  rw [if_pos rfl, h.rEdge_own e h0 h1, mul_one]

theorem Oriented.edgePre_node {r : Nat} (hr : 2 ≤ r) (e : Fin 4) {i j : Nat} (hi : i < r - 1)
    (hj : j < r - 1) (hij : j ≠ i) : edgePre vs r e i (edgePt vs e (param r j)) = 0 := by
  rw [h.edgePre_own (by omega) e i (param_pos hj).le (param_lt hj).le, edgeP_node h hr e hj hij, pval]
  have ho := ne_zero_of_mul_pos (h.opposite_pos e (param_pos hj).le (param_lt hj).le)
  field_simp
  ring

/-! ## Edge functions -/

theorem Oriented.edgeBf_eq {r : Nat} (hr : 2 ≤ r) (e : Fin 4) {i : Nat} (hi : i < r - 1)
    (x : Pt K) : edgeBf vs r e i x = nodalize vs r (edgePre vs r e i) x
      / edgePre vs r e i (edgePt vs e (param r i)) := by
  unfold edgeBf
  split
  · next h2 =>
    subst h2
    obtain rfl : i = 0 := by omega
    rw [← edgePt_half]
    simp [param]
  · rw [edgeNodes_getD vs e hi, nodalize_boundary vs r _ (bubble_zero vs (lam_own_edge vs e _))]

theorem Oriented.edgeBf_vertex {r : Nat} (hr : 2 ≤ r) (e : Fin 4) {i : Nat} (hi : i < r - 1)
    (v : Fin 4) : edgeBf vs r e i (vs v) = 0 := by
  obtain ⟨o, ho⟩ : ∃ o, onEdge v o = true := by revert v; decide
  rw [h.edgeBf_eq hr e hi, nodalize_boundary vs r _ (bubble_zero vs (lam_vertex_on vs ho)),
    edgePre_vertex, zero_div]

theorem Oriented.edgeBf_other {r : Nat} (hr : 2 ≤ r) {e o : Fin 4} (ho : o ≠ e) {i : Nat}
    (hi : i < r - 1) {s : K} (h0 : 0 ≤ s) (h1 : s ≤ 1) :
    edgeBf vs r e i (edgePt vs o s) = 0 := by
  rw [h.edgeBf_eq hr e hi, nodalize_boundary vs r _ (bubble_zero vs (lam_own_edge vs o _)),
    h.edgePre_other r ho i h0 h1, zero_div]

theorem Oriented.edgeBf_own {r : Nat} (hr : 2 ≤ r) (e : Fin 4) {i : Nat} (hi : i < r - 1) (s : K) :
    edgeBf vs r e i (edgePt vs e s) = edgePre vs r e i (edgePt vs e s)
      / edgePre vs r e i (edgePt vs e (param r i)) := by
  rw [h.edgeBf_eq hr e hi, nodalize_boundary vs r _ (bubble_zero vs (lam_own_edge vs e _))]

theorem Oriented.edgeBf_interior {r : Nat} (hr : 2 ≤ r) (e : Fin 4) {i : Nat} (hi : i < r - 1)
    {n : Nat} {p : Pt K} (hp : (internalNodes vs r)[n]? = some p) : edgeBf vs r e i p = 0 := by
  rw [h.edgeBf_eq hr e hi, nodalize_interior h r _ hp, zero_div]

end

end FInAT.Serendipity
