import Verif.Lemmas.Serendipity.Edges

/-! # Vertex functions and the whole basis of direct serendipity elements -/

set_option linter.unusedSectionVars false

namespace FInAT.Serendipity

open FInAT.Spec.Serendipity

variable {K : Type} [Field K] [LinearOrder K] [IsStrictOrderedRing K]

/-- The product of the linear functions of the two edges that do not meet a vertex. -/
def lamOff (vs : Fin 4 → Pt K) (v : Fin 4) (x : Pt K) : K :=
  lam vs (offEdge v 0) x * lam vs (offEdge v 1) x

theorem foldl_sub {α : Type} (g : α → K) (l : List α) (a : K) :
    l.foldl (fun acc p => acc - g p) a = a - (l.map g).sum := by
  induction l generalizing a with
  | nil => simp
  | cons x l ih => rw [List.foldl_cons, ih, List.map_cons, List.sum_cons]; ring

theorem zip_nodes (vs : Fin 4 → Pt K) (r : Nat) (e : Fin 4) :
    List.zip (edgeNodes vs r e) (edgeBfs vs r e)
      = (List.range (r - 1)).map fun k => (edgePt vs e (param r k), edgeBf vs r e k) := by
  apply List.ext_getElem
  · simp [edgeNodes_length, edgeBfs, nodes1d_length]
  · intro k h1 h2
    have hk : k < r - 1 := by simpa using h2
    have := edgeNodes_get vs e hk
    rw [List.getElem?_eq_getElem (by rw [edgeNodes_length]; exact hk)] at this
    simp only [List.getElem_zip, List.getElem_map, List.getElem_range, edgeBfs,
      Option.some.inj this]

theorem vertexPre_eq (vs : Fin 4 → Pt K) (r : Nat) (v : Fin 4) (x : Pt K) :
    vertexPre vs r v x = lamOff vs v x - ((adjEdges v).map fun e =>
      ((List.range (r - 1)).map fun k =>
        lamOff vs v (edgePt vs e (param r k)) * edgeBf vs r e k x).sum).sum := by
  unfold vertexPre
  simp only [zip_nodes, foldl_sub, List.map_map]
  rfl

theorem sum_single {n j : Nat} (hj : j < n) (a : K) :
    ((List.range n).map fun k => if k = j then a else 0).sum = a := by
  induction n with
  | zero => omega
  | succ n ih =>
    rw [List.range_succ, List.map_append, List.sum_append]
    simp only [List.map_cons, List.map_nil, List.sum_cons, List.sum_nil, add_zero]
    by_cases hn : j < n
    · rw [ih hn, if_neg (by omega), add_zero]
    · obtain rfl : j = n := by omega
      rw [if_pos rfl, List.sum_eq_zero, zero_add]
      intro y hy
      simp only [List.mem_map, List.mem_range] at hy
      obtain ⟨k, hk, rfl⟩ := hy
      rw [if_neg (by omega)]

theorem adj_nodup (v : Fin 4) : (adjEdges v).Nodup := by revert v; decide

theorem sum_adj {v o : Fin 4} (ho : o ∈ adjEdges v) (g : Fin 4 → K) (hg : ∀ e, e ≠ o → g e = 0) :
    ((adjEdges v).map g).sum = g o := by
  have hn := adj_nodup v
  generalize adjEdges v = l at *
  induction l with
  | nil => simp at ho
  | cons a l ih =>
    rw [List.nodup_cons] at hn
    rw [List.map_cons, List.sum_cons]
    rcases List.mem_cons.1 ho with rfl | hm
    · rw [List.sum_eq_zero, add_zero]
      intro y hy
      simp only [List.mem_map] at hy
      obtain ⟨e, he, rfl⟩ := hy
      exact hg e fun h => hn.1 (h ▸ he)
    · rw [ih hm hn.2, hg a fun h => hn.1 (h ▸ hm), zero_add]

section

variable {vs : Fin 4 → Pt K} {σ : K} (h : Oriented vs σ)
include h

theorem Oriented.lamOff_own (v : Fin 4) : lamOff vs v (vs v) ≠ 0 := by
  have h1 : onEdge v (offEdge v 0) = false := by revert v; decide
  have h2 : onEdge v (offEdge v 1) = false := by revert v; decide
  exact mul_ne_zero (ne_zero_of_mul_pos (h.vertex_pos h1)) (ne_zero_of_mul_pos (h.vertex_pos h2))

theorem lamOff_other {v w : Fin 4} (hw : w ≠ v) : lamOff vs v (vs w) = 0 := by
  have : onEdge w (offEdge v 0) = true ∨ onEdge w (offEdge v 1) = true := by
    revert v w; decide
  unfold lamOff
  rcases this with h1 | h1 <;> rw [lam_vertex_on vs h1] <;> ring

theorem Oriented.vertexPre_vertex {r : Nat} (hr : 2 ≤ r) (v w : Fin 4) :
    vertexPre vs r v (vs w) = lamOff vs v (vs w) := by
  rw [vertexPre_eq, List.sum_eq_zero, sub_zero]
  intro y hy
  simp only [List.mem_map] at hy
  obtain ⟨e, _, rfl⟩ := hy
  refine List.sum_eq_zero fun y hy => ?_
  simp only [List.mem_map, List.mem_range] at hy
  obtain ⟨k, hk, rfl⟩ := hy
  rw [h.edgeBf_vertex hr e hk, mul_zero]

/-- On an edge only the functions of that edge are subtracted. -/
theorem Oriented.vertexPre_adj {r : Nat} (hr : 2 ≤ r) {v o : Fin 4} (ho : o ∈ adjEdges v) {s : K}
    (h0 : 0 ≤ s) (h1 : s ≤ 1) : vertexPre vs r v (edgePt vs o s) = lamOff vs v (edgePt vs o s)
      - ((List.range (r - 1)).map fun k =>
        lamOff vs v (edgePt vs o (param r k)) * edgeBf vs r o k (edgePt vs o s)).sum := by
  rw [vertexPre_eq, sum_adj ho]
  intro e he
  refine List.sum_eq_zero fun y hy => ?_
  simp only [List.mem_map, List.mem_range] at hy
  obtain ⟨k, hk, rfl⟩ := hy
  rw [h.edgeBf_other hr (Ne.symm he) hk h0 h1, mul_zero]

theorem Oriented.vertexPre_off {r : Nat} (hr : 2 ≤ r) {v o : Fin 4} (ho : o ∉ adjEdges v) {s : K}
    (h0 : 0 ≤ s) (h1 : s ≤ 1) : vertexPre vs r v (edgePt vs o s) = 0 := by
  have e1 : lamOff vs v (edgePt vs o s) = 0 := by
    have : o = offEdge v 0 ∨ o = offEdge v 1 := by revert v o; decide
    unfold lamOff
    rcases this with rfl | rfl <;> rw [lam_own_edge] <;> ring
  rw [vertexPre_eq, List.sum_eq_zero, e1, sub_zero]
  intro y hy
  simp only [List.mem_map] at hy
  obtain ⟨e, he, rfl⟩ := hy
  refine List.sum_eq_zero fun y hy => ?_
  simp only [List.mem_map, List.mem_range] at hy
  obtain ⟨k, hk, rfl⟩ := hy
  have hne : o ≠ e := by rintro rfl; exact ho he
  rw [h.edgeBf_other hr hne hk h0 h1, mul_zero]

/-- No edge function is divided by zero. -/
def Normalised (vs : Fin 4 → Pt K) (r : Nat) : Prop :=
  ∀ e i, i < r - 1 → edgePre vs r e i (edgePt vs e (param r i)) ≠ 0

theorem Oriented.edgeBf_node {r : Nat} (hr : 2 ≤ r) (e : Fin 4) {i j : Nat} (hi : i < r - 1)
    (hj : j < r - 1) (hN : edgePre vs r e i (edgePt vs e (param r i)) ≠ 0) :
    edgeBf vs r e i (edgePt vs e (param r j)) = if i = j then 1 else 0 := by
  rw [h.edgeBf_own hr e hi]
  split
  · next hij => subst hij; exact div_self hN
  · next hij => rw [h.edgePre_node hr e hi hj (Ne.symm hij), zero_div]

theorem Oriented.vertexPre_node {r : Nat} (hr : 2 ≤ r) (hN : Normalised vs r) (v o : Fin 4) {j : Nat}
    (hj : j < r - 1) : vertexPre vs r v (edgePt vs o (param r j)) = 0 := by
  by_cases ho : o ∈ adjEdges v
  · rw [h.vertexPre_adj hr ho (param_pos hj).le (param_lt hj).le]
    have e1 : ((List.range (r - 1)).map fun k => lamOff vs v (edgePt vs o (param r k))
        * edgeBf vs r o k (edgePt vs o (param r j)))
        = (List.range (r - 1)).map fun k =>
          if k = j then lamOff vs v (edgePt vs o (param r j)) else 0 := by
      apply List.map_congr_left
      intro k hk
      have hk := List.mem_range.1 hk
      rw [h.edgeBf_node hr o hk hj (hN o k hk)]
      split
      · next hkj => subst hkj; rw [mul_one]
      · rw [mul_zero]
    rw [e1, sum_single hj, sub_self]
  · exact h.vertexPre_off hr ho (param_pos hj).le (param_lt hj).le

theorem Oriented.vertexBf_boundary {r : Nat} (hr : 2 ≤ r) (v : Fin 4) {x : Pt K}
    (hx : bubble vs x = 0) :
    vertexBf vs r v x = vertexPre vs r v x / lamOff vs v (vs v) := by
  unfold vertexBf
  rw [nodalize_boundary vs r _ hx, h.vertexPre_vertex hr]

theorem Oriented.vertexBf_vertex {r : Nat} (hr : 2 ≤ r) (v w : Fin 4) :
    vertexBf vs r v (vs w) = if v = w then 1 else 0 := by
  obtain ⟨o, ho⟩ : ∃ o, onEdge w o = true := by revert w; decide
  rw [h.vertexBf_boundary hr v (bubble_zero vs (lam_vertex_on vs ho)), h.vertexPre_vertex hr]
  split
  · next hv => subst hv; exact div_self (h.lamOff_own v)
  · next hv => rw [lamOff_other h (Ne.symm hv), zero_div]

theorem Oriented.vertexBf_node {r : Nat} (hr : 2 ≤ r) (hN : Normalised vs r) (v o : Fin 4) {j : Nat}
    (hj : j < r - 1) : vertexBf vs r v (edgePt vs o (param r j)) = 0 := by
  rw [h.vertexBf_boundary hr v (bubble_zero vs (lam_own_edge vs o _)), h.vertexPre_node hr hN v o hj,
    zero_div]

theorem Oriented.vertexBf_interior {r : Nat} (v : Fin 4) {n : Nat} {p : Pt K}
    (hp : (internalNodes vs r)[n]? = some p) : vertexBf vs r v p = 0 := by
  unfold vertexBf
  rw [nodalize_interior h r _ hp, zero_div]

end

/-! ## Assembly -/

theorem Nodal.append {fs gs : List (Pt K → K)} {ps qs : List (Pt K)} (hf : Nodal fs ps)
    (hg : Nodal gs qs) (h1 : ∀ f ∈ fs, ∀ q ∈ qs, f q = 0) (h2 : ∀ g ∈ gs, ∀ p ∈ ps, g p = 0) :
    Nodal (fs ++ gs) (ps ++ qs) := by
  refine ⟨by rw [List.length_append, List.length_append, hf.1, hg.1], fun m n f p hm hn => ?_⟩
  have hl := hf.1
  rw [List.getElem?_append] at hm hn
  split at hm <;> split at hn
  · exact hf.2 m n f p hm hn
  · rw [h1 f (List.mem_of_getElem? hm) p (List.mem_of_getElem? hn), if_neg (by omega)]
  · rw [h2 f (List.mem_of_getElem? hm) p (List.mem_of_getElem? hn), if_neg (by omega)]
  · rw [hg.2 _ _ f p hm hn]
    by_cases hmn : m = n
    · subst hmn
      rw [hl, if_pos rfl, if_pos rfl]
    · rw [if_neg hmn, if_neg (by omega)]

theorem mem_edgeBfs {vs : Fin 4 → Pt K} {r : Nat} {e : Fin 4} {f : Pt K → K} :
    f ∈ edgeBfs vs r e ↔ ∃ i, i < r - 1 ∧ edgeBf vs r e i = f := by
  simp [edgeBfs, nodes1d_length]

theorem mem_edgeNodes {vs : Fin 4 → Pt K} {r : Nat} {e : Fin 4} {p : Pt K}
    (hp : p ∈ edgeNodes vs r e) : ∃ i, i < r - 1 ∧ p = edgePt vs e (param r i) := by
  obtain ⟨i, hi, e1⟩ := List.mem_iff_getElem.1 hp
  rw [edgeNodes_length] at hi
  refine ⟨i, hi, ?_⟩
  have := edgeNodes_get vs e hi
  rw [List.getElem?_eq_getElem (by rw [edgeNodes_length]; exact hi), e1] at this
  exact Option.some.inj this

section

variable {vs : Fin 4 → Pt K} {σ : K} (h : Oriented vs σ)
include h

theorem Oriented.edge_nodal {r : Nat} (hr : 2 ≤ r) (hN : Normalised vs r) (e : Fin 4) :
    Nodal (edgeBfs vs r e) (edgeNodes vs r e) := by
  refine ⟨by simp [edgeBfs, edgeNodes_length, nodes1d_length], fun m n f p hm hn => ?_⟩
  rw [edgeBfs, List.getElem?_map, nodes1d_length] at hm
  obtain ⟨i, hi, rfl⟩ := Option.map_eq_some_iff.1 hm
  obtain ⟨hm', e1⟩ := List.getElem?_eq_some_iff.1 hi
  rw [List.getElem_range] at e1
  subst e1
  have hm'' : m < r - 1 := by simpa using hm'
  have hn' : n < r - 1 := by
    have := (List.getElem?_eq_some_iff.1 hn).1
    rwa [edgeNodes_length] at this
  rw [edgeNodes_get vs e hn'] at hn
  cases hn
  exact h.edgeBf_node hr e hm'' hn' (hN e m hm'')

theorem Oriented.edge_cross {r : Nat} (hr : 2 ≤ r) {e o : Fin 4} (ho : o ≠ e) :
    ∀ f ∈ edgeBfs vs r e, ∀ q ∈ edgeNodes vs r o, f q = 0 := by
  intro f hf q hq
  obtain ⟨i, hi, rfl⟩ := mem_edgeBfs.1 hf
  obtain ⟨j, hj, rfl⟩ := mem_edgeNodes hq
  exact h.edgeBf_other hr ho hi (param_pos hj).le (param_lt hj).le

theorem Oriented.edges_nodal {r : Nat} (hr : 2 ≤ r) (hN : Normalised vs r) :
    Nodal ((List.finRange 4).flatMap (edgeBfs vs r)) ((List.finRange 4).flatMap (edgeNodes vs r)) := by
  have key : ∀ l : List (Fin 4), l.Nodup → Nodal (l.flatMap (edgeBfs vs r))
      (l.flatMap (edgeNodes vs r)) := by
    intro l hl
    induction l with
    | nil => exact ⟨rfl, fun m n f p hm => by simp at hm⟩
    | cons e l ih =>
      rw [List.nodup_cons] at hl
      rw [List.flatMap_cons, List.flatMap_cons]
      refine Nodal.append (h.edge_nodal hr hN e) (ih hl.2) ?_ ?_
      · intro f hf q hq
        obtain ⟨o, ho, hq⟩ := List.mem_flatMap.1 hq
        exact h.edge_cross hr (by rintro rfl; exact hl.1 ho) f hf q hq
      · intro f hf q hq
        obtain ⟨o, ho, hf⟩ := List.mem_flatMap.1 hf
        exact h.edge_cross hr (by rintro rfl; exact hl.1 ho) f hf q hq
  exact key _ (List.nodup_finRange 4)

theorem Oriented.vertices_nodal {r : Nat} (hr : 2 ≤ r) :
    Nodal ((List.finRange 4).map (vertexBf vs r)) ((List.finRange 4).map vs) := by
  refine ⟨by simp, fun m n f p hm hn => ?_⟩
  rw [List.getElem?_map] at hm hn
  obtain ⟨v, hv, rfl⟩ := Option.map_eq_some_iff.1 hm
  obtain ⟨w, hw, rfl⟩ := Option.map_eq_some_iff.1 hn
  rw [h.vertexBf_vertex hr]
  obtain ⟨hm', e1⟩ := List.getElem?_eq_some_iff.1 hv
  obtain ⟨hn', e2⟩ := List.getElem?_eq_some_iff.1 hw
  rw [List.getElem_finRange] at e1 e2
  subst e1 e2
  congr 1
  rw [eq_iff_iff]
  constructor
  · intro he
    have := congrArg Fin.val he
    simpa using this
  · rintro rfl; rfl

theorem Oriented.dsr_nodal {r : Nat} (hr : 2 ≤ r) (hN : Normalised vs r) :
    Nodal (dsr vs r) (dsrNodes vs r) := by
  refine Nodal.append (Nodal.append (h.vertices_nodal hr) (h.edges_nodal hr hN) ?_ ?_)
    (internal_nodal h r) ?_ ?_
  · intro f hf q hq
    obtain ⟨v, _, rfl⟩ := List.mem_map.1 hf
    obtain ⟨e, _, hq⟩ := List.mem_flatMap.1 hq
    obtain ⟨j, hj, rfl⟩ := mem_edgeNodes hq
    exact h.vertexBf_node hr hN v e hj
  · intro f hf q hq
    obtain ⟨e, _, hf⟩ := List.mem_flatMap.1 hf
    obtain ⟨i, hi, rfl⟩ := mem_edgeBfs.1 hf
    obtain ⟨v, _, rfl⟩ := List.mem_map.1 hq
    exact h.edgeBf_vertex hr e hi v
  · intro f hf q hq
    obtain ⟨n, hn⟩ := List.mem_iff_getElem?.1 hq
    rcases List.mem_append.1 hf with hf | hf
    · obtain ⟨v, _, rfl⟩ := List.mem_map.1 hf
      exact h.vertexBf_interior v hn
    · obtain ⟨e, _, hf⟩ := List.mem_flatMap.1 hf
      obtain ⟨i, hi, rfl⟩ := mem_edgeBfs.1 hf
      exact h.edgeBf_interior hr e hi hn
  · intro f hf q hq
    refine internal_zero vs r hf ?_
    rcases List.mem_append.1 hq with hq | hq
    · obtain ⟨v, _, rfl⟩ := List.mem_map.1 hq
      obtain ⟨o, ho⟩ : ∃ o, onEdge v o = true := by clear * -; revert v; decide
      exact bubble_zero vs (lam_vertex_on vs ho)
    · obtain ⟨e, _, hq⟩ := List.mem_flatMap.1 hq
      obtain ⟨j, hj, rfl⟩ := mem_edgeNodes hq
      exact bubble_zero vs (lam_own_edge vs e _)

/-- A function that is divided by zero is not nodal. -/
theorem Oriented.normalised_of_nodal {r : Nat} (hr : 2 ≤ r)
    (hn : Nodal (dsr vs r) (dsrNodes vs r)) : Normalised vs r := by
  intro e i hi h0
  have hb : ∀ x, edgeBf vs r e i x = 0 := fun x => by rw [h.edgeBf_eq hr e hi, h0, div_zero]
  have h1 : edgeBf vs r e i ∈ dsr vs r := by
    refine List.mem_append_left _ (List.mem_append_right _ (List.mem_flatMap.2
      ⟨e, List.mem_finRange e, mem_edgeBfs.2 ⟨i, hi, rfl⟩⟩))
  obtain ⟨m, hm⟩ := List.mem_iff_getElem?.1 h1
  have hl : m < (dsrNodes vs r).length := by
    rw [← hn.1]; exact (List.getElem?_eq_some_iff.1 hm).1
  have := hn.2 m m _ _ hm (List.getElem?_eq_getElem hl)
  rw [hb, if_pos rfl] at this
  exact zero_ne_one this

end

end FInAT.Serendipity
