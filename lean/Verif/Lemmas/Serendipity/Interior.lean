import Verif.Lemmas.Serendipity.DegreeOne
import Mathlib.Data.List.Nodup
import Mathlib.Algebra.BigOperators.Ring.List
import Mathlib.Algebra.Order.BigOperators.Ring.List
import Mathlib.Data.Nat.Cast.Order.Field
import Mathlib.Tactic.NormNum

/-! # Interior nodes and functions of direct serendipity elements -/

set_option linter.unusedSectionVars false

namespace FInAT.Serendipity

open FInAT.Spec.Serendipity

variable {K : Type} [Field K] [LinearOrder K] [IsStrictOrderedRing K]

/-! ## The lattice -/

theorem mem_lattice {m : Nat} {ii : Fin 3 → Nat} (h : ii ∈ lattice m) : ii 0 + ii 1 + ii 2 = m := by
  simp only [lattice, List.mem_flatMap, List.mem_reverse, List.mem_range, List.mem_map] at h
  obtain ⟨i, hi, j, hj, rfl⟩ := h
  change i + j + (m - i - j) = m
  omega

theorem lattice_nodup (m : Nat) : (lattice m).Nodup := by
  rw [lattice, List.nodup_flatMap]
  constructor
  · intro i _
    refine List.Nodup.map (fun a b hab => ?_) (List.nodup_reverse.2 List.nodup_range)
    exact congrFun hab 1
  · refine List.Nodup.pairwise_of_forall_ne (List.nodup_reverse.2 List.nodup_range) ?_
    intro a _ b _ hab x hx hy
    simp only [List.mem_map] at hx hy
    obtain ⟨j, _, rfl⟩ := hx
    obtain ⟨j', _, h⟩ := hy
    exact hab (congrFun h 0).symm

theorem lattice_length (m : Nat) : 2 * (lattice m).length = (m + 1) * (m + 2) := by
  have key : ∀ n, n ≤ m + 1 →
      2 * ((List.range n).map fun i => m - i + 1).sum + n * n = n * (2 * m + 3) := by
    intro n
    induction n with
    | zero => intro _; simp
    | succ n ih =>
      intro hn
      have := ih (by omega)
      rw [List.range_succ, List.map_append, List.sum_append]
      simp only [List.map_cons, List.map_nil, List.sum_cons, List.sum_nil, add_zero]
      obtain ⟨k, rfl⟩ : ∃ k, m = n + k := ⟨m - n, by omega⟩
      rw [show n + k - n = k by omega]
      nlinarith
  have h2 : (lattice m).length = ((List.range (m + 1)).map fun i => m - i + 1).sum := by
    rw [lattice, List.length_flatMap]
    simp only [List.length_map, List.length_reverse, List.length_range]
    rw [List.map_reverse, List.sum_reverse]
  have := key (m + 1) le_rfl
  rw [h2]
  nlinarith

/-! ## Nodes are inside -/

theorem lam_mean (vs : Fin 4 → Pt K) (e : Fin 4) :
    lam vs e (((vs 0).1 + (vs 1).1 + (vs 2).1 + (vs 3).1) / 4,
      ((vs 0).2 + (vs 1).2 + (vs 2).2 + (vs 3).2) / 4)
      = (lam vs e (vs 0) + lam vs e (vs 1) + lam vs e (vs 2) + lam vs e (vs 3)) / 4 := by
  simp only [lam]; field_simp; ring

theorem latticeNode_eq (vs : Fin 4 → Pt K) {r : Nat} (hr : 5 ≤ r) {ii : Fin 3 → Nat}
    (hs : ii 0 + ii 1 + ii 2 = r - 4) :
    latticeNode vs r ii
      = ((1 - (1 + (ii 1 : K)) / ((r : K) - 2) - (1 + (ii 2 : K)) / ((r : K) - 2)) * (vs 0).1
          + (1 + (ii 1 : K)) / ((r : K) - 2) * (vs 1).1 + (1 + (ii 2 : K)) / ((r : K) - 2) * (vs 2).1,
        (1 - (1 + (ii 1 : K)) / ((r : K) - 2) - (1 + (ii 2 : K)) / ((r : K) - 2)) * (vs 0).2
          + (1 + (ii 1 : K)) / ((r : K) - 2) * (vs 1).2
          + (1 + (ii 2 : K)) / ((r : K) - 2) * (vs 2).2) := by
  obtain ⟨m, rfl⟩ : ∃ m, r = m + 5 := ⟨r - 5, by omega⟩
  have h0 : (ii 0 : K) = (m : K) + 1 - ii 1 - ii 2 := by
    have : ii 0 + ii 1 + ii 2 = m + 1 := by omega
    have : (ii 0 : K) + ii 1 + ii 2 = m + 1 := by exact_mod_cast this
    linear_combination this
  have hm : (m : K) + 1 ≠ 0 := by positivity
  have hm3 : (m : K) + 3 ≠ 0 := by positivity
  have t0 : triVertex vs (m + 5) 0 = along vs (m + 5) 1 1 := rfl
  have t1 : triVertex vs (m + 5) 1 = along vs (m + 5) (((m + 5 : Nat) : K) - 3) 1 := rfl
  have t2 : triVertex vs (m + 5) 2 = along vs (m + 5) 1 (((m + 5 : Nat) : K) - 3) := rfl
  have hc : ((m + 5 - 4 : Nat) : K) = m + 1 := by
    rw [show m + 5 - 4 = m + 1 by omega]; push_cast; rfl
  have hd : ((m + 5 : Nat) : K) - 2 = m + 3 := by push_cast; ring
  simp only [latticeNode, t0, t1, t2, along, dxTo, hc, hd, h0]
  ext
  · simp only
    push_cast
    field_simp
    ring
  · simp only
    push_cast
    field_simp
    ring

theorem Oriented.lattice_pos {vs : Fin 4 → Pt K} {σ : K} (h : Oriented vs σ) {r : Nat} (hr : 5 ≤ r)
    {ii : Fin 3 → Nat} (hs : ii 0 + ii 1 + ii 2 = r - 4) (e : Fin 4) :
    0 < σ * lam vs e (latticeNode vs r ii) := by
  rw [latticeNode_eq vs hr hs, lam_comb]
  have hr2 : (0 : K) < (r : K) - 2 := by
    have : (5 : K) ≤ r := by exact_mod_cast hr
    linarith
  have ha : (0 : K) < (1 + (ii 1 : K)) / ((r : K) - 2) := by positivity
  have hb : (0 : K) < (1 + (ii 2 : K)) / ((r : K) - 2) := by positivity
  have hab : (0 : K) ≤ 1 - (1 + (ii 1 : K)) / ((r : K) - 2) - (1 + (ii 2 : K)) / ((r : K) - 2) := by
    have : 1 + ii 1 + (1 + ii 2) ≤ r - 2 := by omega
    have h2 : ((1 + ii 1 + (1 + ii 2) : Nat) : K) ≤ ((r - 2 : Nat) : K) := by exact_mod_cast this
    rw [Nat.cast_sub (by omega)] at h2
    push_cast at h2
    rw [sub_sub, ← add_div, sub_nonneg, div_le_one hr2]
    exact h2
  generalize (1 + (ii 1 : K)) / ((r : K) - 2) = a at *
  generalize (1 + (ii 2 : K)) / ((r : K) - 2) = b at *
  have n0 := h.vertex_nonneg e 0
  have n1 := h.vertex_nonneg e 1
  have n2 := h.vertex_nonneg e 2
  rw [show σ * ((1 - a - b) * lam vs e (vs 0) + a * lam vs e (vs 1) + b * lam vs e (vs 2))
    = (1 - a - b) * (σ * lam vs e (vs 0)) + a * (σ * lam vs e (vs 1)) + b * (σ * lam vs e (vs 2)) by
      ring]
  have m0 := mul_nonneg hab n0
  have m1 := mul_nonneg ha.le n1
  have m2 := mul_nonneg hb.le n2
  have : onEdge 1 e = false ∨ onEdge 2 e = false := by clear n0 n1 n2 m0 m1 m2; revert e; decide
  rcases this with hp | hp
  · have := mul_pos ha (h.vertex_pos hp)
    linarith
  · have := mul_pos hb (h.vertex_pos hp)
    linarith

theorem bubble_eq (vs : Fin 4 → Pt K) (x : Pt K) :
    bubble vs x = lam vs 0 x * lam vs 1 x * lam vs 2 x * lam vs 3 x := by
  simp only [bubble, map_finRange4, List.prod_cons, List.prod_nil]; ring

theorem bubble_zero (vs : Fin 4 → Pt K) {x : Pt K} {e : Fin 4} (h : lam vs e x = 0) :
    bubble vs x = 0 := by
  rw [bubble_eq]
  rcases fin4 e with rfl | rfl | rfl | rfl <;> rw [h] <;> ring

theorem bubble_ne {vs : Fin 4 → Pt K} {σ : K} {x : Pt K} (h : ∀ e, 0 < σ * lam vs e x) :
    bubble vs x ≠ 0 := by
  rw [bubble_eq]
  have := fun e => ne_zero_of_mul_pos (h e)
  simp [this]

/-! ## Lagrange functions on the lattice -/

theorem bary_aux (v0 v1 v2 : Pt K) (i j m : K) (hm : m ≠ 0)
    (hD : (v1.2 - v2.2) * (v0.1 - v2.1) + (v2.1 - v1.1) * (v0.2 - v2.2) ≠ 0) :
    m * (((v1.2 - v2.2) * ((v0.1 * i + v1.1 * j + v2.1 * (m - i - j)) / m - v2.1)
        + (v2.1 - v1.1) * ((v0.2 * i + v1.2 * j + v2.2 * (m - i - j)) / m - v2.2))
        / ((v1.2 - v2.2) * (v0.1 - v2.1) + (v2.1 - v1.1) * (v0.2 - v2.2))) = i ∧
    m * ((-(v0.2 - v2.2) * ((v0.1 * i + v1.1 * j + v2.1 * (m - i - j)) / m - v2.1)
        + (v0.1 - v2.1) * ((v0.2 * i + v1.2 * j + v2.2 * (m - i - j)) / m - v2.2))
        / ((v1.2 - v2.2) * (v0.1 - v2.1) + (v2.1 - v1.1) * (v0.2 - v2.2))) = j := by
  constructor
  · rw [← mul_div_assoc, div_eq_iff hD]
    field_simp
    ring
  · rw [← mul_div_assoc, div_eq_iff hD]
    field_simp
    ring

theorem bary_node {vs : Fin 4 → Pt K} {σ : K} (h : Oriented vs σ) {r : Nat} (hr : 5 ≤ r)
    {ii : Fin 3 → Nat} (hs : ii 0 + ii 1 + ii 2 = r - 4) (q : Fin 3) :
    ((r - 4 : Nat) : K) * bary vs r (latticeNode vs r ii) q = ii q := by
  obtain ⟨m, rfl⟩ : ∃ m, r = m + 5 := ⟨r - 5, by omega⟩
  have hc : ((m + 5 - 4 : Nat) : K) = m + 1 := by
    rw [show m + 5 - 4 = m + 1 by omega]; push_cast; rfl
  have hm : (m : K) + 1 ≠ 0 := by positivity
  have hm3 : (m : K) + 3 ≠ 0 := by positivity
  have h2 : (ii 2 : K) = (m : K) + 1 - ii 0 - ii 1 := by
    have : ii 0 + ii 1 + ii 2 = m + 1 := by omega
    have : (ii 0 : K) + ii 1 + ii 2 = m + 1 := by exact_mod_cast this
    linear_combination this
  have hdet : ((triVertex vs (m + 5) 1).2 - (triVertex vs (m + 5) 2).2)
      * ((triVertex vs (m + 5) 0).1 - (triVertex vs (m + 5) 2).1)
      + ((triVertex vs (m + 5) 2).1 - (triVertex vs (m + 5) 1).1)
      * ((triVertex vs (m + 5) 0).2 - (triVertex vs (m + 5) 2).2) ≠ 0 := by
    have t0 : triVertex vs (m + 5) 0 = along vs (m + 5) 1 1 := rfl
    have t1 : triVertex vs (m + 5) 1 = along vs (m + 5) (((m + 5 : Nat) : K) - 3) 1 := rfl
    have t2 : triVertex vs (m + 5) 2 = along vs (m + 5) 1 (((m + 5 : Nat) : K) - 3) := rfl
    have hd : ((m + 5 : Nat) : K) - 2 = m + 3 := by push_cast; ring
    have hd3 : ((m + 5 : Nat) : K) - 3 = m + 2 := by push_cast; ring
    have hA := ne_zero_of_mul_pos (h 0)
    rw [corner_zero] at hA
    intro h0
    apply hA
    simp only [t0, t1, t2, along, dxTo, hd, hd3] at h0
    have e1 : ((m : K) + 1) ^ 2 * area (vs 2) (vs 0) (vs 1) = 0 := by
      simp only [area]
      field_simp at h0
      linear_combination h0
    exact (mul_eq_zero.1 e1).resolve_left (pow_ne_zero 2 hm)
  obtain ⟨k0, k1⟩ := bary_aux _ _ _ (ii 0 : K) (ii 1 : K) _ hm hdet
  rw [← h2] at k0 k1
  rw [hc]
  have hn : latticeNode vs (m + 5) ii =
      (((triVertex vs (m + 5) 0).1 * (ii 0 : K) + (triVertex vs (m + 5) 1).1 * (ii 1 : K)
        + (triVertex vs (m + 5) 2).1 * (ii 2 : K)) / ((m : K) + 1),
      ((triVertex vs (m + 5) 0).2 * (ii 0 : K) + (triVertex vs (m + 5) 1).2 * (ii 1 : K)
        + (triVertex vs (m + 5) 2).2 * (ii 2 : K)) / ((m : K) + 1)) := by
    simp only [latticeNode, hc]
  rw [hn]
  obtain rfl | rfl | rfl : q = 0 ∨ q = 1 ∨ q = 2 := by revert q; decide
  · exact k0
  · exact k1
  · have e2 : ∀ x, bary vs (m + 5) x 2 = 1 - bary vs (m + 5) x 0 - bary vs (m + 5) x 1 :=
      fun x => rfl
    rw [e2, mul_sub, mul_sub]
    refine (congrArg₂ (fun a b => ((m : K) + 1) * 1 - a - b) k0 k1).trans ?_
    linear_combination -h2

theorem prod_eq_zero_of_mem {l : List K} (h : (0 : K) ∈ l) : l.prod = 0 := List.prod_eq_zero h

theorem lag_node {vs : Fin 4 → Pt K} {σ : K} (h : Oriented vs σ) {r : Nat} (hr : 5 ≤ r)
    {ii jj : Fin 3 → Nat} (hi : ii 0 + ii 1 + ii 2 = r - 4) (hj : jj 0 + jj 1 + jj 2 = r - 4) :
    lag vs r ii (latticeNode vs r jj) = if ii = jj then 1 else 0 := by
  unfold lag
  simp only [bary_node h hr hj]
  split
  · next he =>
    subst he
    refine List.prod_eq_one fun x hx => ?_
    simp only [List.mem_map] at hx
    obtain ⟨q, _, rfl⟩ := hx
    refine List.prod_eq_one fun x hx => ?_
    simp only [List.mem_map, List.mem_range] at hx
    obtain ⟨p, hp, rfl⟩ := hx
    refine div_self ?_
    rw [sub_ne_zero]
    exact_mod_cast (by omega : ii q ≠ p)
  · next he =>
    obtain ⟨q, hq⟩ : ∃ q, jj q < ii q := by
      by_contra hc
      push Not at hc
      apply he
      have h0 := hc 0
      have h1 := hc 1
      have h2 := hc 2
      funext q
      obtain rfl | rfl | rfl : q = 0 ∨ q = 1 ∨ q = 2 := by revert q; decide
      all_goals omega
    refine List.prod_eq_zero (List.mem_map.2 ⟨q, List.mem_finRange q, ?_⟩)
    refine List.prod_eq_zero (List.mem_map.2 ⟨jj q, List.mem_range.2 hq, ?_⟩)
    simp

/-! ## Interior functions -/

/-- Every interior function is a multiple of the bubble. -/
theorem internal_zero (vs : Fin 4 → Pt K) (r : Nat) {bf : Pt K → K} (hb : bf ∈ internalBfs vs r)
    {x : Pt K} (hx : bubble vs x = 0) : bf x = 0 := by
  unfold internalBfs at hb
  split at hb
  · simp at hb
  · split at hb
    · simp only [List.mem_map] at hb
      obtain ⟨nd, _, rfl⟩ := hb
      simp [hx]
    · simp only [List.mem_map] at hb
      obtain ⟨ii, _, rfl⟩ := hb
      simp [hx]

theorem internal_nodal {vs : Fin 4 → Pt K} {σ : K} (h : Oriented vs σ) (r : Nat) :
    Nodal (internalBfs vs r) (internalNodes vs r) := by
  unfold internalBfs internalNodes
  split
  · exact ⟨rfl, fun m n f p hf => by simp at hf⟩
  split
  · refine ⟨by simp, fun m n f p hf hp => ?_⟩
    rw [map_finRange4, map_finRange4] at hp hf
    have hm : m = 0 := by
      rcases m with _ | m
      · rfl
      · simp at hf
    have hn : n = 0 := by
      rcases n with _ | n
      · rfl
      · simp at hp
    subst hm hn
    simp only [List.map_cons, List.map_nil, List.getElem?_cons_zero, Option.some.injEq] at hf hp
    subst hf hp
    rw [if_pos rfl]
    refine div_self (bubble_ne (σ := σ) fun e => ?_)
    simp only [List.sum_cons, List.sum_nil, add_zero, ← add_assoc]
    rw [lam_mean]
    have n0 := h.vertex_nonneg e 0
    have n1 := h.vertex_nonneg e 1
    have n2 := h.vertex_nonneg e 2
    have n3 := h.vertex_nonneg e 3
    have : onEdge 1 e = false ∨ onEdge 2 e = false := by clear n0 n1 n2 n3; revert e; decide
    rw [show σ * ((lam vs e (vs 0) + lam vs e (vs 1) + lam vs e (vs 2) + lam vs e (vs 3)) / 4)
      = (σ * lam vs e (vs 0) + σ * lam vs e (vs 1) + σ * lam vs e (vs 2) + σ * lam vs e (vs 3)) / 4
      by ring]
    rcases this with hp | hp
    · have := h.vertex_pos hp
      linarith
    · have := h.vertex_pos hp
      linarith
  · next h4 h4' =>
    have hr : 5 ≤ r := by omega
    refine ⟨by simp, fun m n f p hf hp => ?_⟩
    simp only [List.getElem?_map, Option.map_eq_some_iff] at hf hp
    obtain ⟨ii, hi, rfl⟩ := hf
    obtain ⟨jj, hj, rfl⟩ := hp
    have mi := mem_lattice (List.mem_of_getElem? hi)
    have mj := mem_lattice (List.mem_of_getElem? hj)
    change lag vs r ii (latticeNode vs r jj) * bubble vs (latticeNode vs r jj)
      / (lag vs r ii (latticeNode vs r ii) * bubble vs (latticeNode vs r ii)) = _
    rw [lag_node h hr mi mj, lag_node h hr mi mi, if_pos rfl, one_mul]
    by_cases hmn : m = n
    · subst hmn
      rw [hi] at hj
      cases hj
      rw [if_pos rfl, if_pos rfl, one_mul]
      exact div_self (bubble_ne (h.lattice_pos hr mi))
    · have : ii ≠ jj := by
        rintro rfl
        obtain ⟨hm', e1⟩ := List.getElem?_eq_some_iff.1 hi
        obtain ⟨hn', e2⟩ := List.getElem?_eq_some_iff.1 hj
        exact hmn ((lattice_nodup _).getElem_inj_iff.1 (e1.trans e2.symm))
      rw [if_neg this, if_neg hmn, zero_mul, zero_div]

/-! ## `nodalize` -/

/-- Nothing changes where the bubble vanishes. -/
theorem nodalize_boundary (vs : Fin 4 → Pt K) (r : Nat) (f : Pt K → K) {x : Pt K}
    (hx : bubble vs x = 0) : nodalize vs r f x = f x := by
  unfold nodalize
  rw [List.sum_eq_zero, sub_zero]
  intro y hy
  simp only [List.mem_map] at hy
  obtain ⟨⟨bf, nd⟩, hm, rfl⟩ := hy
  change f nd * bf x = 0
  rw [internal_zero vs r (List.of_mem_zip hm).1 hx, mul_zero]

theorem sum_zip_nodal {fs : List (Pt K → K)} {ps : List (Pt K)} (h : Nodal fs ps) (f : Pt K → K)
    {n : Nat} {p : Pt K} (hp : ps[n]? = some p) :
    ((List.zip fs ps).map fun q => f q.2 * q.1 p).sum = f p := by
  have hl := h.1
  have hn : n < ps.length := (List.getElem?_eq_some_iff.1 hp).1
  have e : (List.zip fs ps).map (fun q => f q.2 * q.1 p)
      = (List.range ps.length).map fun k => if k = n then f p else 0 := by
    apply List.ext_getElem
    · simp [hl]
    · intro k h1 h2
      simp only [List.getElem_map, List.getElem_zip, List.getElem_range]
      have hk : k < ps.length := by simpa using h2
      have := h.2 k n fs[k] p (List.getElem?_eq_getElem (by omega)) hp
      rw [this]
      split
      · next hkn =>
        subst hkn
        rw [List.getElem?_eq_getElem hk] at hp
        cases hp
        rw [mul_one]
      · rw [mul_zero]
  rw [e]
  clear e hp hl
  generalize ps.length = N at hn
  induction N with
  | zero => omega
  | succ N ih =>
    rw [List.range_succ, List.map_append, List.sum_append]
    simp only [List.map_cons, List.map_nil, List.sum_cons, List.sum_nil, add_zero]
    by_cases hN : n < N
    · rw [ih hN, if_neg (by omega), add_zero]
    · obtain rfl : n = N := by omega
      rw [if_pos rfl, List.sum_eq_zero, zero_add]
      intro y hy
      simp only [List.mem_map, List.mem_range] at hy
      obtain ⟨k, hk, rfl⟩ := hy
      rw [if_neg (by omega)]

/-- Afterwards the function vanishes at the interior nodes. -/
theorem nodalize_interior {vs : Fin 4 → Pt K} {σ : K} (h : Oriented vs σ) (r : Nat) (f : Pt K → K)
    {n : Nat} {p : Pt K} (hp : (internalNodes vs r)[n]? = some p) : nodalize vs r f p = 0 := by
  unfold nodalize
  rw [sum_zip_nodal (internal_nodal h r) f hp, sub_self]

end FInAT.Serendipity
