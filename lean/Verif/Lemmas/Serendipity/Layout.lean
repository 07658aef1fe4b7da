import Verif.Lemmas.Serendipity.Assemble
import Verif.Lemmas.Serendipity.Newton
import Verif.Lemmas.Monad
import Verif.Lemmas.TabNode2
import Verif.Lemmas.FiatTab
import Verif.Model.Serendipity.Element
import Verif.Spec.Dofs
import Mathlib.LinearAlgebra.Lagrange

/-! # Layout, nodes, degree one and derivative cache of direct serendipity elements -/

set_option linter.unusedSectionVars false

namespace FInAT.Serendipity

open FInAT FInAT.Spec FInAT.Spec.Serendipity
open Polynomial

/-! ## Counting -/

theorem spaceDimension_eq {r : Nat} (hr : 2 ≤ r) :
    spaceDimension r = 4 + 4 * (r - 1) + (r - 2) * (r - 3) / 2 := by
  rw [spaceDimension, if_neg (by omega)]
  obtain ⟨m, rfl⟩ : ∃ m, r = m + 2 := ⟨r - 2, by omega⟩
  rw [show m + 2 - 1 = m + 1 by omega, show m + 2 - 2 = m by omega, show m + 2 - 3 = m - 1 by omega]
  rcases m with _ | m
  · rfl
  · rw [show m + 1 - 1 = m by omega]
    have : (m + 1 + 2 + 1) * (m + 1 + 2 + 2) = (m + 1) * m + 2 * (4 * m + 10) := by ring
    rw [this, Nat.add_mul_div_left _ _ (by omega)]
    omega

theorem rangeFrom_length (a b : Nat) : (rangeFrom a b).length = b - a := by
  simp [rangeFrom]

theorem entityDofs_eq {r : Nat} (hr : 2 ≤ r) : entityDofs r =
    [(.int 0, (List.range 4).map fun i => (i, [i])),
      (.int 1, (List.range 4).map fun i =>
        (i, rangeFrom (4 + i * (r - 1)) (4 + (i + 1) * (r - 1)))),
      (.int 2, [(0, rangeFrom (4 + 4 * (r - 1)) (spaceDimension r))])] := by
  rw [entityDofs, if_neg (by omega)]
  split
  · next h => subst h; decide
  · rfl

theorem dofsOn_edge {r : Nat} (hr : 2 ≤ r) (e : Fin 4) : dofsOn (entityDofs r) (.int 1) e
    = rangeFrom (4 + e.val * (r - 1)) (4 + (e.val + 1) * (r - 1)) := by
  rw [entityDofs_eq hr]
  rcases fin4 e with rfl | rfl | rfl | rfl <;> rfl

theorem layout (r : Nat) (hr : 1 ≤ r) :
    Partition (entityDofs r) (spaceDimension r) ∧
    Covers (entityDofs r) [(.int 0, 4), (.int 1, 4), (.int 2, 1)] ∧
    (∀ v, v < 4 → (dofsOn (entityDofs r) (.int 0) v).length = 1) ∧
    (∀ e, e < 4 → (dofsOn (entityDofs r) (.int 1) e).length = r - 1) ∧
    (dofsOn (entityDofs r) (.int 2) 0).length = (r - 2) * (r - 3) / 2 := by
  rcases Nat.lt_or_ge r 2 with h2 | h2
  · obtain rfl : r = 1 := by omega
    refine ⟨by decide, ⟨by decide, ?_⟩, ?_, ?_, by decide⟩
    · intro p hp
      simp only [List.mem_cons, List.not_mem_nil, or_false] at hp
      rcases hp with rfl | rfl | rfl
      · exact ⟨_, List.mem_cons_self .., by decide⟩
      · exact ⟨_, List.mem_cons_of_mem _ (List.mem_cons_self ..), by decide⟩
      · exact ⟨_, List.mem_cons_of_mem _ (List.mem_cons_of_mem _ (List.mem_cons_self ..)), by decide⟩
    · decide
    · decide
  · have hs := spaceDimension_eq h2
    rw [entityDofs_eq h2]
    refine ⟨?_, ⟨by simp [List.range_succ], ?_⟩, ?_, ?_, ?_⟩
    · unfold Partition
      have : allDofs [(Dim.int 0, (List.range 4).map fun i => (i, [i])),
          (.int 1, (List.range 4).map fun i =>
            (i, rangeFrom (4 + i * (r - 1)) (4 + (i + 1) * (r - 1)))),
          (.int 2, [(0, rangeFrom (4 + 4 * (r - 1)) (spaceDimension r))])]
          = List.range (spaceDimension r) := by
        simp only [allDofs, List.range_succ, List.range_zero, List.nil_append,
          List.map_cons, List.map_nil, List.flatMap_cons, List.flatMap_nil, List.append_nil,
          List.cons_append, rangeFrom]
        have e0 : List.range (spaceDimension r) = List.range' 0 4 ++ (List.range' 4 (r - 1)
            ++ (List.range' (4 + (r - 1)) (r - 1) ++ (List.range' (4 + 2 * (r - 1)) (r - 1)
            ++ (List.range' (4 + 3 * (r - 1)) (r - 1)
            ++ List.range' (4 + 4 * (r - 1)) ((r - 2) * (r - 3) / 2))))) := by
          rw [List.range_eq_range', hs]
          rw [show 4 + 4 * (r - 1) = 4 + 3 * (r - 1) + (r - 1) by omega]
          rw [show (4 + 3 * (r - 1) + (r - 1)) = (4 + 3 * (r - 1)) + (r - 1) from rfl,
            List.range'_append_1]
          rw [show 4 + 3 * (r - 1) = 4 + 2 * (r - 1) + (r - 1) by omega, List.range'_append_1]
          rw [show 4 + 2 * (r - 1) = 4 + (r - 1) + (r - 1) by omega, List.range'_append_1]
          rw [List.range'_append_1]
          have := List.range'_append_1 (s := 0) (m := 4) (n :=
            r - 1 + (r - 1 + (r - 1 + (r - 1 + (r - 2) * (r - 3) / 2))))
          rw [show 0 + 4 = 4 from rfl] at this
          rw [this]
          congr 1
          omega
        rw [e0]
        rw [show 4 + 0 * (r - 1) = 4 by omega, show 4 + (0 + 1) * (r - 1) - 4 = r - 1 by omega,
          show 4 + 1 * (r - 1) = 4 + (r - 1) by omega,
          show 4 + (1 + 1) * (r - 1) - (4 + (r - 1)) = r - 1 by omega,
          show 4 + (2 + 1) * (r - 1) - (4 + 2 * (r - 1)) = r - 1 by omega,
          show 4 + (3 + 1) * (r - 1) - (4 + 3 * (r - 1)) = r - 1 by omega,
          show spaceDimension r - (4 + 4 * (r - 1)) = (r - 2) * (r - 3) / 2 by omega]
        simp [List.range']
      rw [this]
    · intro p hp
      simp only [List.mem_cons, List.not_mem_nil, or_false] at hp
      rcases hp with rfl | rfl | rfl
      · exact ⟨_, List.mem_cons_self .., by simp [List.range_succ]⟩
      · exact ⟨_, List.mem_cons_of_mem _ (List.mem_cons_self ..), by simp [List.range_succ]⟩
      · exact ⟨_, List.mem_cons_of_mem _ (List.mem_cons_of_mem _ (List.mem_cons_self ..)),
          by simp [List.range_succ]⟩
    · intro v hv
      obtain rfl | rfl | rfl | rfl : v = 0 ∨ v = 1 ∨ v = 2 ∨ v = 3 := by omega
      all_goals rfl
    · intro e he
      rw [← entityDofs_eq h2, dofsOn_edge h2 ⟨e, he⟩, rangeFrom_length, Nat.add_mul]
      omega
    · change (rangeFrom _ _).length = _
      rw [rangeFrom_length]; omega

theorem lattice_card (r : Nat) (hr : 4 ≤ r) :
    (lattice (r - 4)).length = (r - 2) * (r - 3) / 2 := by
  have := lattice_length (r - 4)
  rw [show r - 4 + 1 = r - 3 by omega, show r - 4 + 2 = r - 2 by omega] at this
  rw [Nat.mul_comm (r - 2), ← this]
  omega

theorem small_card {r : Nat} (hr : r < 4) : (r - 2) * (r - 3) / 2 = 0 := by
  obtain rfl | rfl | rfl | rfl : r = 0 ∨ r = 1 ∨ r = 2 ∨ r = 3 := by omega
  all_goals rfl

theorem internalBfs_length {K : Type} [Field K] (vs : Fin 4 → Pt K) (r : Nat) :
    (internalBfs vs r).length = (r - 2) * (r - 3) / 2 := by
  unfold internalBfs internalNodes
  split
  · next h => rw [small_card h]; rfl
  · next h =>
    split
    · next h' => subst h'; simp
    · rw [List.length_map, lattice_card r (by omega)]

theorem internalNodes_length {K : Type} [Field K] (vs : Fin 4 → Pt K) (r : Nat) :
    (internalNodes vs r).length = (r - 2) * (r - 3) / 2 := by
  unfold internalNodes
  split
  · next h => rw [small_card h]; rfl
  · next h =>
    split
    · next h' => subst h'; simp
    · rw [List.length_map, lattice_card r (by omega)]

theorem ds_length {K : Type} [Field K] (vs : Fin 4 → Pt K) (r : Nat) (hr : 1 ≤ r) :
    (ds vs r).length = spaceDimension r := by
  unfold ds
  split
  · next h => subst h; rw [ds1, List.length_map, List.length_finRange]; rfl
  · next h =>
    rw [spaceDimension_eq (by omega), dsr, List.length_append, List.length_append, List.length_map,
      List.length_finRange, internalBfs_length, List.length_flatMap]
    have : (fun e => (edgeBfs vs r e).length) = fun _ => r - 1 := by
      funext e
      rw [edgeBfs, List.length_map, List.length_range, nodes1d, List.length_map, List.length_range']
    rw [this, List.map_const', List.length_finRange, List.sum_replicate]
    simp

variable {K : Type} [Field K] [LinearOrder K] [IsStrictOrderedRing K]

/-! ## Nodes -/

theorem inside_of_pos {vs : Fin 4 → Pt K} {σ : K} {p : Pt K} (h : ∀ e, 0 < σ * lam vs e p) :
    Inside vs p := by
  have h0 := h 0
  have h1 := h 1
  have h2 := h 2
  have h3 := h 3
  rw [lam_zero] at h0
  rw [lam_one] at h1
  rw [lam_two] at h2
  rw [lam_three] at h3
  rcases lt_trichotomy σ 0 with hσ | hσ | hσ
  · right
    exact ⟨by nlinarith, by nlinarith, by nlinarith, by nlinarith⟩
  · subst hσ; simp at h0
  · left
    exact ⟨(mul_pos_iff_of_pos_left hσ).1 h0, (mul_pos_iff_of_pos_left hσ).1 h3,
      (mul_pos_iff_of_pos_left hσ).1 h1, (mul_pos_iff_of_pos_left hσ).1 h2⟩

theorem Oriented.internal_pos {vs : Fin 4 → Pt K} {σ : K} (h : Oriented vs σ) (r : Nat) {p : Pt K}
    (hp : p ∈ internalNodes vs r) (e : Fin 4) : 0 < σ * lam vs e p := by
  unfold internalNodes at hp
  split at hp
  · simp at hp
  split at hp
  · rw [map_finRange4, map_finRange4, List.mem_singleton] at hp
    subst hp
    simp only [List.sum_cons, List.sum_nil, add_zero, ← add_assoc]
    rw [lam_mean]
    have n0 := h.vertex_nonneg e 0
    have n1 := h.vertex_nonneg e 1
    have n2 := h.vertex_nonneg e 2
    have n3 := h.vertex_nonneg e 3
    have : onEdge 1 e = false ∨ onEdge 2 e = false := by clear n0 n1 n2 n3; revert e; decide
    rw [show σ * ((lam vs e (vs 0) + lam vs e (vs 1) + lam vs e (vs 2) + lam vs e (vs 3)) / 4)
      = (σ * lam vs e (vs 0) + σ * lam vs e (vs 1) + σ * lam vs e (vs 2) + σ * lam vs e (vs 3)) / 4
      by ring]
    rcases this with hp | hp
    · have := h.vertex_pos hp
      linarith
    · have := h.vertex_pos hp
      linarith
  · simp only [List.mem_map] at hp
    obtain ⟨ii, hi, rfl⟩ := hp
    exact h.lattice_pos (by omega) (mem_lattice hi) e

theorem nodal_nodup {fs : List (Pt K → K)} {ps : List (Pt K)}
    (h : Spec.Serendipity.Nodal fs ps) : ps.Nodup := by
  rw [List.nodup_iff_injective_get]
  intro i j hij
  by_contra hne
  have hi : fs[i.val]? = some (fs[i.val]'(by rw [h.1]; exact i.2)) := List.getElem?_eq_getElem _
  have e1 := h.2 i i _ _ hi (List.getElem?_eq_getElem i.2)
  have e2 := h.2 i j _ _ hi (List.getElem?_eq_getElem j.2)
  rw [if_pos rfl] at e1
  rw [if_neg (fun hh => hne (Fin.ext hh))] at e2
  have hij' : ps[i.val] = ps[j.val] := hij
  rw [hij', e2] at e1
  exact zero_ne_one e1

theorem dsrNodes_eq (vs : Fin 4 → Pt K) (r : Nat) :
    dsrNodes vs r = boundaryNodes vs r ++ internalNodes vs r := by
  have : ∀ e, edgeNodes vs r e = (List.range (r - 1)).map fun (k : Nat) =>
      between (vs (edgeEnds e).1) (vs (edgeEnds e).2) (((k : K) + 1) / (r : K)) := by
    intro e
    apply List.ext_getElem?
    intro i
    by_cases hi : i < r - 1
    · rw [edgeNodes_get vs e hi, edgePt_eq_between, List.getElem?_map, List.getElem?_range hi]
      rfl
    · rw [List.getElem?_eq_none (by rw [edgeNodes_length]; omega),
        List.getElem?_eq_none (by simp; omega)]
  rw [dsrNodes, boundaryNodes, map_finRange4]
  congr 2
  exact congrArg (fun f => (List.finRange 4).flatMap f) (funext this)

theorem nodes_split (vs : Fin 4 → Pt K) (hc : StrictlyConvex vs) (r : Nat) :
    ∃ inner, dsrNodes vs r = boundaryNodes vs r ++ inner ∧
      inner.length = (r - 2) * (r - 3) / 2 ∧ inner.Nodup ∧ ∀ p ∈ inner, Inside vs p := by
  obtain ⟨σ, h⟩ := StrictlyConvex.oriented hc
  exact ⟨internalNodes vs r, dsrNodes_eq vs r, internalNodes_length vs r, nodal_nodup (internal_nodal h r),
    fun p hp => inside_of_pos fun e => h.internal_pos r hp e⟩

theorem flatMap_get {α : Type} (f : Fin 4 → List α) (n : Nat) (hf : ∀ e, (f e).length = n)
    (e : Fin 4) {k : Nat} (hk : k < n) :
    ((List.finRange 4).flatMap f)[e.val * n + k]? = (f e)[k]? := by
  have : (List.finRange 4).flatMap f = f 0 ++ (f 1 ++ (f 2 ++ (f 3 ++ []))) := rfl
  rw [this]
  have h0 := hf 0
  have h1 := hf 1
  have h2 := hf 2
  have h3 := hf 3
  rcases fin4 e with rfl | rfl | rfl | rfl
  · change (f 0 ++ _)[0 * n + k]? = _
    rw [List.getElem?_append_left (by omega)]
    congr 1; omega
  · change (f 0 ++ _)[1 * n + k]? = _
    rw [List.getElem?_append_right (by omega), List.getElem?_append_left (by omega)]
    congr 1; omega
  · change (f 0 ++ _)[2 * n + k]? = _
    rw [List.getElem?_append_right (by omega), List.getElem?_append_right (by omega),
      List.getElem?_append_left (by omega)]
    congr 1; omega
  · change (f 0 ++ _)[3 * n + k]? = _
    rw [List.getElem?_append_right (by omega), List.getElem?_append_right (by omega),
      List.getElem?_append_right (by omega), List.getElem?_append_left (by omega)]
    congr 1; omega

theorem nodes_layout (vs : Fin 4 → Pt K) (hc : StrictlyConvex vs) (r : Nat) (hr : 1 ≤ r) :
    (∀ v : Fin 4, ∃ i, dofsOn (entityDofs r) (.int 0) v = [i] ∧ (dsrNodes vs r)[i]? = some (vs v)) ∧
    (∀ e : Fin 4, (dofsOn (entityDofs r) (.int 1) e).map (fun i => (dsrNodes vs r)[i]?)
      = (List.range (r - 1)).map fun (k : Nat) => some
        (between (vs (edgeEnds e).1) (vs (edgeEnds e).2) (((k : K) + 1) / (r : K)))) ∧
    (∀ i ∈ dofsOn (entityDofs r) (.int 2) 0, ∃ p, (dsrNodes vs r)[i]? = some p ∧ Inside vs p) := by
  have hv : ∀ v : Fin 4, (dsrNodes vs r)[v.val]? = some (vs v) := by
    intro v
    rw [dsrNodes, map_finRange4]
    rcases fin4 v with rfl | rfl | rfl | rfl <;> rfl
  rcases Nat.lt_or_ge r 2 with h2 | h2
  · obtain rfl : r = 1 := by omega
    refine ⟨fun v => ⟨v, ?_, hv v⟩, fun e => ?_, fun i hi => ?_⟩
    · rcases fin4 v with rfl | rfl | rfl | rfl <;> rfl
    · rcases fin4 e with rfl | rfl | rfl | rfl <;> rfl
    · exact absurd hi (List.not_mem_nil)
  · obtain ⟨σ, h⟩ := StrictlyConvex.oriented hc
    have hs := spaceDimension_eq h2
    rw [entityDofs_eq h2]
    have hB : ((List.finRange 4).map vs).length = 4 := by simp
    have hEl : ∀ e, (edgeNodes vs r e).length = r - 1 := fun e => edgeNodes_length vs r e
    have hE : ((List.finRange 4).flatMap (edgeNodes vs r)).length = 4 * (r - 1) := by
      rw [List.length_flatMap, funext hEl, List.map_const', List.length_finRange,
        List.sum_replicate]
      rfl
    refine ⟨fun v => ⟨v, ?_, hv v⟩, fun e => ?_, fun i hi => ?_⟩
    · rcases fin4 v with rfl | rfl | rfl | rfl <;> rfl
    · rw [← entityDofs_eq h2, dofsOn_edge h2, rangeFrom,
        show 4 + (e.val + 1) * (r - 1) - (4 + e.val * (r - 1)) = r - 1 by
        rw [Nat.add_mul]; omega, List.range'_eq_map_range, List.map_map]
      apply List.map_congr_left
      intro k hk
      have hk := List.mem_range.1 hk
      simp only [Function.comp]
      rw [← edgePt_eq_between]
      rw [dsrNodes, List.append_assoc, List.getElem?_append_right (by rw [hB]; omega), hB,
        show 4 + e.val * (r - 1) + k - 4 = e.val * (r - 1) + k by omega]
      have hlt : e.val * (r - 1) + k < 4 * (r - 1) := by
        have : e.val ≤ 3 := by omega
        have := Nat.mul_le_mul_right (r - 1) this
        omega
      rw [List.getElem?_append_left (by rw [hE]; exact hlt), flatMap_get _ _ hEl e hk,
        edgeNodes_get vs e hk]
      rfl
    · change i ∈ rangeFrom _ _ at hi
      rw [rangeFrom, List.mem_range'_1] at hi
      have hlt : i - 4 - 4 * (r - 1) < (internalNodes vs r).length := by
        rw [internalNodes_length]; omega
      refine ⟨(internalNodes vs r)[i - 4 - 4 * (r - 1)], ?_, inside_of_pos fun e =>
        h.internal_pos r (List.getElem_mem hlt) e⟩
      rw [dsrNodes, List.append_assoc, List.getElem?_append_right (by omega),
        List.getElem?_append_right (by omega), hB, hE, List.getElem?_eq_getElem]

/-! ## Uniqueness of the Newton polynomial -/

theorem newtonPoly_unique {K : Type} [Field K] (nodes : List K) (hd : nodes.Nodup) (q : K[X])
    (hq : q.degree < nodes.length) (s : K) :
    newtonPoly nodes (nodes.map fun t => q.eval t) s = q.eval s := by
  obtain ⟨p, hp, hs⟩ := newtonPoly_degree nodes (nodes.map fun t => q.eval t)
  rw [hs]
  suffices p = q by rw [this]
  refine Polynomial.eq_of_degrees_lt_of_eval_index_eq (s := Finset.univ)
    (v := fun i : Fin nodes.length => nodes.get i) ?_ ?_ ?_ ?_
  · exact (List.nodup_iff_injective_get.1 hd).injOn
  · rw [Finset.card_univ, Fintype.card_fin]; exact hp
  · rw [Finset.card_univ, Fintype.card_fin]; exact hq
  · intro i _
    rw [← hs]
    have := newtonPoly_interpolates nodes (nodes.map fun t => q.eval t) hd i i.2
    rw [List.getD_eq_getElem _ _ i.2, List.getD_eq_getElem _ _ (by simp)] at this
    simpa using this

/-! ## Degree one -/

theorem ds1_get (vs : Fin 4 → Pt K) (v : Fin 4) : (ds vs 1)[v.val]? = some (phi1 vs v) := by
  rw [ds, if_pos rfl, ds1, map_finRange4]
  rcases fin4 v with rfl | rfl | rfl | rfl <;> rfl

theorem ds1_edges (vs : Fin 4 → Pt K) (hc : StrictlyConvex vs) (e v : Fin 4) (f : Pt K → K)
    (hf : (ds vs 1)[v.val]? = some f) (s : K) (h0 : 0 ≤ s) (h1 : s ≤ 1) :
    f (between (vs (edgeEnds e).1) (vs (edgeEnds e).2) s)
      = if v = (edgeEnds e).1 then 1 - s else if v = (edgeEnds e).2 then s else 0 := by
  obtain ⟨σ, h⟩ := StrictlyConvex.oriented hc
  rw [ds1_get, Option.some.injEq] at hf
  subst hf
  rw [← edgePt_eq_between, h.phi1_edge v e h0 h1]
  have he : ends = edgeEnds := rfl
  rw [he]
  by_cases ha : v = (edgeEnds e).1
  · have : v ≠ (edgeEnds e).2 := by
      clear h1 h0 h hc
      revert v e; decide
    rw [if_pos ha, if_neg this, if_pos ha, add_zero]
  · rw [if_neg ha, if_neg ha, zero_add]

theorem ds1_nodal (vs : Fin 4 → Pt K) (hc : StrictlyConvex vs) :
    Spec.Serendipity.Nodal (ds vs 1) [vs 0, vs 1, vs 2, vs 3] := by
  obtain ⟨σ, h⟩ := StrictlyConvex.oriented hc
  have key : ∀ v w : Fin 4, phi1 vs v (vs w) = if v = w then 1 else 0 := by
    intro v w
    have a1 := h.phi1_edge v 0 (s := 0) le_rfl zero_le_one
    have a2 := h.phi1_edge v 0 (s := 1) zero_le_one le_rfl
    have a3 := h.phi1_edge v 1 (s := 0) le_rfl zero_le_one
    have a4 := h.phi1_edge v 1 (s := 1) zero_le_one le_rfl
    rw [edgePt_start] at a1 a3
    rw [edgePt_end] at a2 a4
    simp only [sub_zero, sub_self, ite_self, add_zero, zero_add] at a1 a2 a3 a4
    rcases fin4 w with rfl | rfl | rfl | rfl
    exacts [a1, a2, a3, a4]
  refine ⟨by simp [ds, ds1], fun m n f p hf hp => ?_⟩
  have hm : m < 4 := by
    have := (List.getElem?_eq_some_iff.1 hf).1
    simpa [ds, ds1] using this
  have hn : n < 4 := by
    have := (List.getElem?_eq_some_iff.1 hp).1
    simpa using this
  have e1 := ds1_get vs ⟨m, hm⟩
  rw [hf, Option.some.injEq] at e1
  have e2 : [vs 0, vs 1, vs 2, vs 3][n]? = some (vs ⟨n, hn⟩) := by
    clear hp
    obtain rfl | rfl | rfl | rfl : n = 0 ∨ n = 1 ∨ n = 2 ∨ n = 3 := by omega
    all_goals rfl
  rw [hp, Option.some.injEq] at e2
  rw [e1, e2, key]
  simp only [Fin.mk.injEq]

theorem ds1_affine (vs : Fin 4 → Pt K) (hc : StrictlyConvex vs) (a b c : K) (x : Pt K) :
    interpolate (ds vs 1) [vs 0, vs 1, vs 2, vs 3] (fun p => a + b * p.1 + c * p.2) x
      = a + b * x.1 + c * x.2 := by
  obtain ⟨σ, h⟩ := StrictlyConvex.oriented hc
  rw [← h.phi1_affine a b c x, interpolate, ds, if_pos rfl, ds1, map_finRange4]
  simp only [List.zip_cons_cons, List.zip_nil_right, List.map_cons, List.map_nil, List.sum_cons,
    List.sum_nil, add_zero, ← add_assoc]

/-! ## The derivative cache -/

section Cache

variable {X E G : Type} [DecidableEq X] (diff : E → List X → List Nat → E) (phis : List E)

/-- Every entry of the cache is the list of derivatives it is for. -/
def Valid (c : DerivCache X E) : Prop :=
  ∀ k d, c.get? k = some d → d = phis.map fun phi => diff phi k.1 k.2

theorem basisDeriv_spec {c : DerivCache X E} (hc : Valid diff phis c) (xx : List X)
    (alpha : List Nat) : (basisDeriv diff phis c xx alpha).1 = phis.map (fun phi => diff phi xx alpha)
      ∧ Valid diff phis (basisDeriv diff phis c xx alpha).2 := by
  unfold basisDeriv
  split
  · next d hd => exact ⟨hc _ _ hd, hc⟩
  · next hn =>
    unfold setdefault
    rw [hn]
    refine ⟨rfl, fun k d hk => ?_⟩
    rw [Dict.get?_set] at hk
    split at hk
    · next he => cases hk; subst he; rfl
    · exact hc _ _ hk

/-- The table the loop builds from the multi-indices `l`, without a cache. -/
def table (xx : List X) (mapper : E → G) (l : List (List Nat)) (t : Dict (List Nat) (List G)) :
    Dict (List Nat) (List G) :=
  l.foldl (fun t alpha => t.set alpha (phis.map fun phi => mapper (diff phi xx alpha))) t

theorem evaluation_loop (xx : List X) (mapper : E → G) : ∀ (l : List (List Nat))
    (t : Dict (List Nat) (List G)) (c : DerivCache X E), Valid diff phis c →
    (l.foldl (fun st alpha =>
      let r := basisDeriv diff phis st.2 xx alpha
      (st.1.set alpha (r.1.map mapper), r.2)) (t, c)).1 = table diff phis xx mapper l t ∧
    Valid diff phis (l.foldl (fun st alpha =>
      let r := basisDeriv diff phis st.2 xx alpha
      (st.1.set alpha (r.1.map mapper), r.2)) (t, c)).2
  | [], t, c, hc => ⟨rfl, hc⟩
  | alpha :: l, t, c, hc => by
    obtain ⟨h1, h2⟩ := basisDeriv_spec diff phis hc xx alpha
    have := evaluation_loop xx mapper l
      (t.set alpha ((basisDeriv diff phis c xx alpha).1.map mapper))
      (basisDeriv diff phis c xx alpha).2 h2
    rw [List.foldl_cons]
    refine ⟨this.1.trans ?_, this.2⟩
    rw [h1, table, table, List.foldl_cons, List.map_map]
    rfl

theorem evaluation_spec (xx : List X) {c : DerivCache X E} (hc : Valid diff phis c) (order : Nat)
    (mapper : E → G) : (basisEvaluation diff phis xx c order mapper).1
      = table diff phis xx mapper ((List.range (order + 1)).flatMap (mis 2)) [] ∧
    Valid diff phis (basisEvaluation diff phis xx c order mapper).2 :=
  evaluation_loop diff phis xx mapper _ _ _ hc

theorem history_valid (xx : List X) : ∀ (history : List (Nat × (E → G))) (c : DerivCache X E),
    Valid diff phis c → Valid diff phis
      (history.foldl (fun c q => (basisEvaluation diff phis xx c q.1 q.2).2) c)
  | [], _, hc => hc
  | q :: qs, c, hc => by
    rw [List.foldl_cons]
    exact history_valid xx qs _ (evaluation_spec diff phis xx hc q.1 q.2).2

theorem table_get (xx : List X) (mapper : E → G) (alpha : List Nat) : ∀ (l : List (List Nat))
    (t : Dict (List Nat) (List G)), (table diff phis xx mapper l t).get? alpha
      = if alpha ∈ l then some (phis.map fun phi => mapper (diff phi xx alpha)) else t.get? alpha
  | [], t => by simp [table]
  | a :: l, t => by
    have := table_get xx mapper alpha l (t.set a (phis.map fun phi => mapper (diff phi xx a)))
    rw [table, List.foldl_cons]
    rw [table] at this
    rw [this, Dict.get?_set]
    by_cases ha : alpha = a
    · subst ha; simp
    · have ha' : ¬ a = alpha := fun h => ha h.symm
      simp [ha, ha']

theorem evaluation_history (xx : List X) (history : List (Nat × (E → G))) (order : Nat)
    (mapper : E → G) (alpha : List Nat) :
    let cache := history.foldl
      (fun c q => (basisEvaluation diff phis xx c q.1 q.2).2) ([] : DerivCache X E)
    (basisEvaluation diff phis xx cache order mapper).1.get? alpha
      = if alpha.length = 2 ∧ alpha.sum ≤ order
        then some (phis.map fun phi => mapper (diff phi xx alpha)) else none := by
  intro cache
  have hc : Valid diff phis cache := history_valid diff phis xx history [] (by
    intro k d hk; simp [Dict.get?] at hk)
  rw [(evaluation_spec diff phis xx hc order mapper).1, table_get]
  simp only [mem_mis_upto]
  rfl

theorem evaluation_fresh (xx : List X) (history : List (Nat × (E → G))) (order : Nat)
    (mapper : E → G) :
    let cache := history.foldl
      (fun c q => (basisEvaluation diff phis xx c q.1 q.2).2) ([] : DerivCache X E)
    (basisEvaluation diff phis xx cache order mapper).1
      = (basisEvaluation diff phis xx [] order mapper).1 := by
  intro cache
  have he : Valid diff phis ([] : DerivCache X E) := by
    intro k d hk; simp [Dict.get?] at hk
  have hc : Valid diff phis cache := history_valid diff phis xx history [] he
  rw [(evaluation_spec diff phis xx hc order mapper).1,
    (evaluation_spec diff phis xx he order mapper).1]

theorem diff_engines {X E : Type} (D : E → X → E) (expr : E) (xx : List X) (alpha : List Nat) :
    diffSympy D expr xx alpha = diffSymengine D expr xx alpha := by
  unfold diffSympy diffSymengine
  induction xx.zip alpha generalizing expr with
  | nil => rfl
  | cons p l ih =>
    rw [List.foldl_cons, List.flatMap_cons, List.foldl_append, ih]
    congr 1
    obtain ⟨x, n⟩ := p
    clear ih
    induction n generalizing expr with
    | zero => rfl
    | succ n ih => rw [Function.iterate_succ_apply, List.replicate_succ, List.foldl_cons]; exact ih _

end Cache

end FInAT.Serendipity
