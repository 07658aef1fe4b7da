import Verif.Lemmas.Serendipity.Space
import Mathlib.LinearAlgebra.Lagrange
import Mathlib.Algebra.Polynomial.Degree.Lemmas

/-! # Direct serendipity functions along the edges -/

set_option linter.unusedSectionVars false

namespace FInAT.Serendipity

open FInAT.Spec.Serendipity

variable {K : Type} [Field K] [LinearOrder K] [IsStrictOrderedRing K]

/-- A polynomial in two variables along a segment. -/
theorem isPoly_segment {n : Nat} {f : Pt K → K} (hf : IsPoly n f) (a b : Pt K) :
    ∃ q : Polynomial K, q.natDegree ≤ n ∧ ∀ s, f (between a b s) = q.eval s := by
  obtain ⟨p, hp, ep⟩ := hf
  let l : Fin 2 → Polynomial K := ![Polynomial.C a.1 + Polynomial.C (b.1 - a.1) * Polynomial.X,
    Polynomial.C a.2 + Polynomial.C (b.2 - a.2) * Polynomial.X]
  have hl : ∀ i, (l i).natDegree ≤ 1 := by
    intro i
    have : ∀ u v : K, (Polynomial.C u + Polynomial.C v * Polynomial.X).natDegree ≤ 1 := by
      intro u v
      refine (Polynomial.natDegree_add_le _ _).trans (max_le (by simp) ?_)
      exact (Polynomial.natDegree_C_mul_le _ _).trans Polynomial.natDegree_X_le
    obtain rfl | rfl : i = 0 ∨ i = 1 := by revert i; decide
    · exact this _ _
    · exact this _ _
  refine ⟨MvPolynomial.aeval l p, ?_, fun s => ?_⟩
  · rw [MvPolynomial.aeval_def, MvPolynomial.eval₂_eq']
    refine Polynomial.natDegree_sum_le_of_forall_le _ _ fun d hd => ?_
    have hdeg : d 0 + d 1 ≤ n := by
      have := (MvPolynomial.le_totalDegree hd).trans hp
      rw [Finsupp.sum_fintype _ _ (fun _ => rfl), Fin.sum_univ_two] at this
      exact this
    rw [Fin.prod_univ_two]
    refine (Polynomial.natDegree_C_mul_le _ _).trans (Polynomial.natDegree_mul_le.trans ?_)
    have h0 := (Polynomial.natDegree_pow_le (p := l 0) (n := d 0)).trans
      (Nat.mul_le_mul_left (d 0) (hl 0))
    have h1 := (Polynomial.natDegree_pow_le (p := l 1) (n := d 1)).trans
      (Nat.mul_le_mul_left (d 1) (hl 1))
    omega
  · rw [ep, MvPolynomial.aeval_def, MvPolynomial.eval₂_eq', MvPolynomial.eval_eq',
      Polynomial.eval_finsetSum]
    refine Finset.sum_congr rfl fun d _ => ?_
    rw [Fin.prod_univ_two, Fin.prod_univ_two]
    simp only [l, between, Polynomial.algebraMap_eq, Polynomial.eval_mul, Polynomial.eval_pow,
      Polynomial.eval_C, Polynomial.eval_add, Polynomial.eval_X, Matrix.cons_val_zero,
      Matrix.cons_val_one]
    congr 3 <;> ring

theorem Oriented.supp_edge {vs : Fin 4 → Pt K} {σ : K} (h : Oriented vs σ) (r : Nat)
    (e o : Fin 4) {s : K} (h0 : 0 ≤ s) (h1 : s ≤ 1) : supp vs r e (edgePt vs o s)
      = if o = e then lam vs (adjacent e 0) (edgePt vs o s) * lam vs (adjacent e 1) (edgePt vs o s)
          * tunnelR vs e (edgePt vs o s) ^ (r - 2) else 0 := by
  rcases edge_cases e o with rfl | rfl | rfl | rfl
  · rw [if_pos rfl, supp, h.rEdge_own _ h0 h1, mul_one]
  · rw [supp, h.rEdge_opposite _ h0 h1, mul_zero, mul_zero, if_neg]
    rcases fin4 e with rfl | rfl | rfl | rfl <;> decide
  · rw [supp, lam_own_edge, if_neg]
    · ring
    · rcases fin4 e with rfl | rfl | rfl | rfl <;> decide
  · rw [supp, lam_own_edge, if_neg]
    · ring
    · rcases fin4 e with rfl | rfl | rfl | rfl <;> decide

theorem InSpace.trace {vs : Fin 4 → Pt K} {σ : K} (h : Oriented vs σ) {r : Nat} (hr : 2 ≤ r)
    (hf : Flat vs r) {f : Pt K → K} (hs : InSpace vs r f) (o : Fin 4) :
    ∃ q : Polynomial K, q.natDegree ≤ r ∧ ∀ s, 0 ≤ s → s ≤ 1 → f (edgePt vs o s) = q.eval s := by
  obtain ⟨g, a, b, hg, hx⟩ := hs
  have key : ∀ e : Fin 4, e = 0 ∨ e = 2 → ∃ p : Pt K → K, IsPoly r p ∧
      ∀ s, 0 ≤ s → s ≤ 1 → supp vs r e (edgePt vs o s) = p (edgePt vs o s) := by
    intro e he
    by_cases hoe : o = e
    · refine ⟨fun x => lam vs (adjacent e 0) x * lam vs (adjacent e 1) x
        * tunnelR vs e x ^ (r - 2), ?_, fun s h0 h1 => ?_⟩
      · refine ((isPoly_lam vs _).mul (k := 2) le_rfl (isPoly_lam vs _)).mul (n := r - 2) (by omega) ?_
        rcases he with rfl | rfl
        · exact hf.1
        · exact hf.2
      · rw [h.supp_edge r e o h0 h1, if_pos hoe]
    · exact ⟨fun _ => 0, isPoly_const r 0, fun s h0 h1 => by
        rw [h.supp_edge r e o h0 h1, if_neg hoe]⟩
  obtain ⟨p0, hp0, e0⟩ := key 0 (Or.inl rfl)
  obtain ⟨p2, hp2, e2⟩ := key 2 (Or.inr rfl)
  obtain ⟨q, hq, e⟩ := isPoly_segment (hg.add ((hp0.smul a).add (hp2.smul b)))
    (vs (edgeEnds o).1) (vs (edgeEnds o).2)
  refine ⟨q, hq, fun s h0 h1 => ?_⟩
  rw [hx, e0 s h0 h1, e2 s h0 h1, ← e s, edgePt_eq_between]

/-- The points that divide an edge into equal parts, with its ends, are nodes. -/
theorem edge_node_mem (vs : Fin 4 → Pt K) {r : Nat} (hr : 1 ≤ r) (e : Fin 4) {k : Nat}
    (hk : k ≤ r) :
    between (vs (edgeEnds e).1) (vs (edgeEnds e).2) ((k : K) / (r : K)) ∈ dsrNodes vs r := by
  have hr0 : (r : K) ≠ 0 := by
    have : r ≠ 0 := by omega
    exact_mod_cast this
  have hv : ∀ v : Fin 4, vs v ∈ boundaryNodes vs r := by
    intro v
    refine List.mem_append_left _ ?_
    rcases fin4 v with rfl | rfl | rfl | rfl <;> simp
  rw [dsrNodes_eq]
  refine List.mem_append_left _ ?_
  by_cases h0 : k = 0
  · subst h0
    have : between (vs (edgeEnds e).1) (vs (edgeEnds e).2) (((0 : Nat) : K) / (r : K))
        = vs (edgeEnds e).1 := by simp [between]
    rw [this]; exact hv _
  by_cases h1 : k = r
  · subst h1
    have : between (vs (edgeEnds e).1) (vs (edgeEnds e).2) ((k : K) / (k : K))
        = vs (edgeEnds e).2 := by rw [div_self hr0]; simp [between]
    rw [this]; exact hv _
  refine List.mem_append_right _ (List.mem_flatMap.2 ⟨e, List.mem_finRange e, List.mem_map.2
    ⟨k - 1, List.mem_range.2 (by omega), ?_⟩⟩)
  have : ((k - 1 : Nat) : K) + 1 = (k : K) := by
    have : k - 1 + 1 = k := by omega
    exact_mod_cast this
  rw [this]

theorem interpolate_node {fs : List (Pt K → K)} {ps : List (Pt K)}
    (hn : Spec.Serendipity.Nodal fs ps) (g : Pt K → K) {p : Pt K} (hp : p ∈ ps) :
    interpolate fs ps g p = g p := by
  obtain ⟨j, hj⟩ := List.mem_iff_getElem?.1 hp
  exact sum_zip_nodal hn g hj

/-- The elements for which the trace theorem holds. -/
def Conforming (vs : Fin 4 → Pt K) (r : Nat) : Prop := r = 1 ∨ r = 2 ∨ 2 ≤ r ∧ Parallelogram vs

theorem Conforming.flat {vs : Fin 4 → Pt K} {r : Nat} (hc : Conforming vs r) (h1 : r ≠ 1) :
    Flat vs r := by
  rcases hc with rfl | rfl | ⟨_, hp⟩
  · exact absurd rfl h1
  · exact flat_two vs
  · exact flat_parallelogram hp r

theorem Conforming.nodal {vs : Fin 4 → Pt K} {r : Nat} (hc : Conforming vs r)
    (hs : StrictlyConvex vs) : Spec.Serendipity.Nodal (ds vs r) (dsrNodes vs r) := by
  obtain ⟨σ, h⟩ := StrictlyConvex.oriented hs
  by_cases h1 : r = 1
  · subst h1
    have : dsrNodes vs 1 = [vs 0, vs 1, vs 2, vs 3] := rfl
    rw [this]
    exact ds1_nodal vs hs
  have hr : 2 ≤ r := by rcases hc with rfl | rfl | ⟨h, _⟩ <;> omega
  rw [ds, if_neg h1]
  refine h.dsr_nodal hr ((h.regular_iff hr).2 ?_)
  rcases hc with rfl | rfl | ⟨_, hp⟩
  · omega
  · exact h.regular_two
  · exact parallelogram_regular h hp hr

theorem Conforming.trace {vs : Fin 4 → Pt K} {r : Nat} (hc : Conforming vs r)
    (hs : StrictlyConvex vs) (e : Fin 4) (g : Pt K → K) :
    ∃ q : Polynomial K, q.natDegree ≤ r ∧
      (∀ k : Nat, k ≤ r → q.eval ((k : K) / (r : K))
        = g (between (vs (edgeEnds e).1) (vs (edgeEnds e).2) ((k : K) / (r : K)))) ∧
      ∀ s, 0 ≤ s → s ≤ 1 → interpolate (ds vs r) (dsrNodes vs r) g
        (between (vs (edgeEnds e).1) (vs (edgeEnds e).2) s) = q.eval s := by
  have hr1 : 1 ≤ r := by rcases hc with rfl | rfl | ⟨h, _⟩ <;> omega
  have hr0 : (0 : K) < (r : K) := by exact_mod_cast hr1
  have hn := hc.nodal hs
  suffices H : ∃ q : Polynomial K, q.natDegree ≤ r ∧ ∀ s, 0 ≤ s → s ≤ 1 →
      interpolate (ds vs r) (dsrNodes vs r) g
        (between (vs (edgeEnds e).1) (vs (edgeEnds e).2) s) = q.eval s by
    obtain ⟨q, hq, hx⟩ := H
    refine ⟨q, hq, fun k hk => ?_, hx⟩
    rw [← hx _ (div_nonneg (Nat.cast_nonneg k) hr0.le)
      ((div_le_one hr0).2 (by exact_mod_cast hk)), interpolate_node hn g (edge_node_mem vs hr1 e hk)]
  obtain ⟨σ, h⟩ := StrictlyConvex.oriented hs
  by_cases h1 : r = 1
  · subst h1
    refine ⟨Polynomial.C (g (vs (edgeEnds e).1))
      + Polynomial.C (g (vs (edgeEnds e).2) - g (vs (edgeEnds e).1)) * Polynomial.X, ?_, ?_⟩
    · refine (Polynomial.natDegree_add_le _ _).trans (max_le (by simp) ?_)
      exact (Polynomial.natDegree_C_mul_le _ _).trans Polynomial.natDegree_X_le
    · intro s h0 h1
      have hi : ∀ x, interpolate (ds vs 1) (dsrNodes vs 1) g x = g (vs 0) * phi1 vs 0 x
          + (g (vs 1) * phi1 vs 1 x + (g (vs 2) * phi1 vs 2 x + (g (vs 3) * phi1 vs 3 x + 0))) :=
        fun _ => rfl
      rw [hi, ← edgePt_eq_between, h.phi1_edge 0 e h0 h1, h.phi1_edge 1 e h0 h1,
        h.phi1_edge 2 e h0 h1, h.phi1_edge 3 e h0 h1]
      simp only [Polynomial.eval_add, Polynomial.eval_mul, Polynomial.eval_C, Polynomial.eval_X]
      rcases fin4 e with rfl | rfl | rfl | rfl <;> simp [ends, edgeEnds] <;> ring
  · have hr : 2 ≤ r := by omega
    have hfl := hc.flat h1
    have hI : InSpace vs r (interpolate (ds vs r) (dsrNodes vs r) g) :=
      InSpace.listSum (List.zip (ds vs r) (dsrNodes vs r))
        (fun (q : (Pt K → K) × Pt K) x => g q.2 * q.1 x) fun q hq => by
          have := (List.of_mem_zip hq).1
          rw [ds, if_neg h1] at this
          exact (dsr_inSpace hr hfl q.1 this).smul _
    obtain ⟨q, hq, hx⟩ := hI.trace h hr hfl e
    exact ⟨q, hq, fun s h0 h1 => by rw [← edgePt_eq_between, hx s h0 h1]⟩

/-- Two polynomials of degree `r` with the same values at the nodes. -/
theorem eq_of_nodes {r : Nat} (hr : 1 ≤ r) {p q : Polynomial K} (hp : p.natDegree ≤ r)
    (hq : q.natDegree ≤ r)
    (h : ∀ k : Nat, k ≤ r → p.eval ((k : K) / (r : K)) = q.eval ((k : K) / (r : K))) : p = q := by
  have hr0 : (r : K) ≠ 0 := by
    have : r ≠ 0 := by omega
    exact_mod_cast this
  have hd : ∀ p : Polynomial K, p.natDegree ≤ r → p.degree < (Finset.range (r + 1)).card := by
    intro p hp
    rw [Finset.card_range]
    refine lt_of_le_of_lt Polynomial.degree_le_natDegree ?_
    exact_mod_cast Nat.lt_succ_of_le hp
  refine Polynomial.eq_of_degrees_lt_of_eval_index_eq (Finset.range (r + 1))
    (v := fun k : Nat => (k : K) / (r : K)) ?_ (hd p hp) (hd q hq) ?_
  · intro a _ b _ hab
    have := (div_left_inj' hr0).1 hab
    exact_mod_cast this
  · intro k hk
    exact h k (Nat.lt_succ_iff.1 (Finset.mem_range.1 hk))

theorem between_flip (a b : Pt K) (s : K) : between a b s = between b a (1 - s) := by
  simp only [between]
  ext
  · ring
  · ring

theorem Conforming.continuous {vs ws : Fin 4 → Pt K} {r : Nat} (hc : Conforming vs r)
    (hs : StrictlyConvex vs) (hc' : Conforming ws r) (hs' : StrictlyConvex ws) (e o : Fin 4)
    (hshare : (vs (edgeEnds e).1 = ws (edgeEnds o).1 ∧ vs (edgeEnds e).2 = ws (edgeEnds o).2) ∨
      (vs (edgeEnds e).1 = ws (edgeEnds o).2 ∧ vs (edgeEnds e).2 = ws (edgeEnds o).1))
    (g : Pt K → K) (s : K) (h0 : 0 ≤ s) (h1 : s ≤ 1) :
    interpolate (ds vs r) (dsrNodes vs r) g (between (vs (edgeEnds e).1) (vs (edgeEnds e).2) s)
      = interpolate (ds ws r) (dsrNodes ws r) g
        (between (vs (edgeEnds e).1) (vs (edgeEnds e).2) s) := by
  have hr1 : 1 ≤ r := by rcases hc with rfl | rfl | ⟨h, _⟩ <;> omega
  have hr0 : (r : K) ≠ 0 := by
    have : r ≠ 0 := by omega
    exact_mod_cast this
  obtain ⟨q, hq, hv, hx⟩ := hc.trace hs e g
  obtain ⟨q', hq', hv', hx'⟩ := hc'.trace hs' o g
  rcases hshare with ⟨ha, hb⟩ | ⟨ha, hb⟩
  · rw [hx s h0 h1]
    rw [ha, hb] at hv ⊢
    rw [hx' s h0 h1]
    rw [eq_of_nodes hr1 hq hq' fun k hk => by rw [hv k hk, hv' k hk]]
  · rw [hx s h0 h1]
    rw [ha, hb] at hv ⊢
    rw [between_flip, hx' (1 - s) (by linarith) (by linarith)]
    let l : Polynomial K := Polynomial.C 1 - Polynomial.X
    have hl : l.natDegree ≤ 1 := (Polynomial.natDegree_sub_le _ _).trans
      (max_le (by simp) Polynomial.natDegree_X_le)
    have : q = q'.comp l := by
      refine eq_of_nodes hr1 hq ?_ fun k hk => ?_
      · refine Polynomial.natDegree_comp_le.trans ?_
        calc q'.natDegree * l.natDegree ≤ q'.natDegree * 1 := Nat.mul_le_mul_left _ hl
          _ ≤ r := by omega
      · rw [hv k hk, Polynomial.eval_comp]
        simp only [l, Polynomial.eval_sub, Polynomial.eval_C, Polynomial.eval_X]
        have : (1 : K) - (k : K) / (r : K) = ((r - k : Nat) : K) / (r : K) := by
          rw [Nat.cast_sub hk, sub_div, div_self hr0]
        rw [this, hv' _ (by omega), ← this, between_flip]
    rw [this, Polynomial.eval_comp]
    simp [l]

theorem onEdge_ends : ∀ v e : Fin 4, onEdge v e = true → v = (edgeEnds e).1 ∨ v = (edgeEnds e).2 := by
  decide

theorem offEdge_ends : ∀ v e : Fin 4, onEdge v e = false → v ≠ (ends e).1 ∧ v ≠ (ends e).2 := by
  decide

theorem onEdge_adj : ∀ v e : Fin 4, onEdge v e = false → e ∉ adjEdges v := by
  decide

theorem flatMap_cases {α β : Type} (f : Fin 4 → List α) (g : Fin 4 → List β) (n : Nat)
    (hf : ∀ e, (f e).length = n) (hg : ∀ e, (g e).length = n) {m : Nat} {a : α} {b : β}
    (ha : ((List.finRange 4).flatMap f)[m]? = some a)
    (hb : ((List.finRange 4).flatMap g)[m]? = some b) :
    ∃ (e : Fin 4) (k : Nat), k < n ∧ (f e)[k]? = some a ∧ (g e)[k]? = some b := by
  have hm : m < 4 * n := by
    have := (List.getElem?_eq_some_iff.1 ha).1
    rw [List.length_flatMap, map_finRange4] at this
    simp only [hf, List.sum_cons, List.sum_nil] at this
    omega
  have hn : 0 < n := by
    rcases Nat.eq_zero_or_pos n with rfl | h
    · omega
    · exact h
  have he : m / n < 4 := (Nat.div_lt_iff_lt_mul hn).2 hm
  have hk := Nat.mod_lt m hn
  have hd : m / n * n + m % n = m := by rw [Nat.mul_comm]; exact Nat.div_add_mod m n
  refine ⟨⟨m / n, he⟩, m % n, hk, ?_, ?_⟩
  · rw [← flatMap_get f n hf ⟨m / n, he⟩ hk]
    simp only [hd]; exact ha
  · rw [← flatMap_get g n hg ⟨m / n, he⟩ hk]
    simp only [hd]; exact hb

theorem dsr_cases (vs : Fin 4 → Pt K) (r : Nat) {m : Nat} {f : Pt K → K} {p : Pt K}
    (hf : (dsr vs r)[m]? = some f) (hp : (dsrNodes vs r)[m]? = some p) :
    (∃ v, f = vertexBf vs r v ∧ p = vs v) ∨
    (∃ e i, i < r - 1 ∧ f = edgeBf vs r e i ∧ p = edgePt vs e (param r i)) ∨
    f ∈ internalBfs vs r := by
  rw [dsr, List.append_assoc, List.getElem?_append] at hf
  rw [dsrNodes, List.append_assoc, List.getElem?_append] at hp
  simp only [List.length_map, List.length_finRange] at hf hp
  by_cases h4 : m < 4
  · rw [if_pos h4, List.getElem?_map] at hf hp
    rw [List.getElem?_eq_getElem (by simpa using h4)] at hf hp
    exact Or.inl ⟨_, (Option.some.inj hf).symm, (Option.some.inj hp).symm⟩
  right
  rw [if_neg h4, List.getElem?_append] at hf hp
  have hl1 : ((List.finRange 4).flatMap (edgeBfs vs r)).length = 4 * (r - 1) := by
    rw [List.length_flatMap, map_finRange4]
    simp only [edgeBfs, List.length_map, List.length_range, nodes1d_length, List.sum_cons,
      List.sum_nil]
    omega
  have hl2 : ((List.finRange 4).flatMap (edgeNodes vs r)).length = 4 * (r - 1) := by
    rw [List.length_flatMap, map_finRange4]
    simp only [edgeNodes_length, List.sum_cons, List.sum_nil]
    omega
  rw [hl1] at hf
  rw [hl2] at hp
  by_cases hm : m - 4 < 4 * (r - 1)
  · rw [if_pos hm] at hf hp
    obtain ⟨e, k, hk, h1, h2⟩ := flatMap_cases _ _ (r - 1)
      (fun e => by simp [edgeBfs, nodes1d_length]) (edgeNodes_length vs r) hf hp
    rw [edgeNodes_get vs e hk] at h2
    refine Or.inl ⟨e, k, hk, ?_, (Option.some.inj h2).symm⟩
    rw [edgeBfs, List.getElem?_map, nodes1d_length, List.getElem?_range hk] at h1
    exact (Option.some.inj h1).symm
  · rw [if_neg hm] at hf
    exact Or.inr (List.mem_of_getElem? hf)

/-- Functions whose node is not on an edge are zero on this edge. -/
theorem ds_vanish (vs : Fin 4 → Pt K) (hs : StrictlyConvex vs) (r : Nat) (hr : 1 ≤ r) (e : Fin 4)
    (m : Nat) (f : Pt K → K) (p : Pt K) (hf : (ds vs r)[m]? = some f)
    (hp : (dsrNodes vs r)[m]? = some p)
    (hoff : ∀ s, 0 ≤ s → s ≤ 1 → p ≠ between (vs (edgeEnds e).1) (vs (edgeEnds e).2) s) (s : K)
    (h0 : 0 ≤ s) (h1 : s ≤ 1) :
    f (between (vs (edgeEnds e).1) (vs (edgeEnds e).2) s) = 0 := by
  obtain ⟨σ, h⟩ := StrictlyConvex.oriented hs
  have hend : ∀ v : Fin 4, p = vs v → onEdge v e = false := by
    intro v hv
    by_contra hon
    have hon : onEdge v e = true := by simpa using hon
    have hv2 := onEdge_ends v e hon
    rcases hv2 with h2 | h2
    · exact hoff 0 le_rfl zero_le_one (by rw [hv, h2]; simp [between])
    · exact hoff 1 zero_le_one le_rfl (by rw [hv, h2]; simp [between])
  by_cases hr1 : r = 1
  · subst hr1
    have hm : m < 4 := by
      have := (List.getElem?_eq_some_iff.1 hf).1
      simpa [ds, ds1] using this
    have e1 := ds1_get vs ⟨m, hm⟩
    rw [hf] at e1
    obtain rfl := Option.some.inj e1
    have hpm : p = vs ⟨m, hm⟩ := by
      have : dsrNodes vs 1 = [vs 0, vs 1, vs 2, vs 3] := rfl
      rw [this] at hp
      obtain rfl | rfl | rfl | rfl : m = 0 ∨ m = 1 ∨ m = 2 ∨ m = 3 := by omega
      all_goals exact (Option.some.inj hp).symm
    have hoffv := hend _ hpm
    rw [← edgePt_eq_between, h.phi1_edge _ e h0 h1]
    have hne := offEdge_ends _ e hoffv
    rw [if_neg hne.1, if_neg hne.2, add_zero]
  have hr2 : 2 ≤ r := by omega
  rw [ds, if_neg hr1] at hf
  rw [← edgePt_eq_between]
  have hbub : bubble vs (edgePt vs e s) = 0 := bubble_zero vs (lam_own_edge vs e s)
  rcases dsr_cases vs r hf hp with ⟨v, rfl, hv⟩ | ⟨o, i, hi, rfl, ho⟩ | hint
  · rw [h.vertexBf_boundary hr2 v hbub, h.vertexPre_off hr2 (onEdge_adj v e (hend v hv)) h0 h1,
      zero_div]
  · refine h.edgeBf_other hr2 (fun heo => ?_) hi h0 h1
    subst heo
    exact hoff (param r i) (param_pos hi).le (param_lt hi).le (by rw [ho, edgePt_eq_between])
  · exact internal_zero vs r hint hbub

/-- Polynomials of degree one are affine. -/
theorem isPoly_one {f : Pt K → K} (hf : IsPoly 1 f) :
    ∃ a b c : K, ∀ x, f x = a + b * x.1 + c * x.2 := by
  obtain ⟨p, hp, ep⟩ := hf
  have e1 : f = ∑ d ∈ p.support, p.coeff d • fun x : Pt K => x.1 ^ d 0 * x.2 ^ d 1 := by
    funext x
    rw [ep, MvPolynomial.eval_eq', Finset.sum_apply]
    refine Finset.sum_congr rfl fun d _ => ?_
    rw [Fin.prod_univ_two]
    rfl
  rw [e1]
  refine Finset.sum_induction _ (fun f : Pt K → K => ∃ a b c : K, ∀ x, f x = a + b * x.1 + c * x.2)
    ?_ ⟨0, 0, 0, fun x => by simp⟩ ?_
  · rintro g h ⟨a, b, c, hg⟩ ⟨a', b', c', hh⟩
    exact ⟨a + a', b + b', c + c', fun x => by rw [Pi.add_apply, hg, hh]; ring⟩
  · intro d hd
    have hdeg : d 0 + d 1 ≤ 1 := by
      have := (MvPolynomial.le_totalDegree hd).trans hp
      rw [Finsupp.sum_fintype _ _ (fun _ => rfl), Fin.sum_univ_two] at this
      exact this
    have : (d 0 = 0 ∧ d 1 = 0) ∨ (d 0 = 1 ∧ d 1 = 0) ∨ (d 0 = 0 ∧ d 1 = 1) := by omega
    rcases this with ⟨h0, h1⟩ | ⟨h0, h1⟩ | ⟨h0, h1⟩
    · exact ⟨p.coeff d, 0, 0, fun x => by simp [h0, h1]⟩
    · exact ⟨0, p.coeff d, 0, fun x => by simp [h0, h1]⟩
    · exact ⟨0, 0, p.coeff d, fun x => by simp [h0, h1]⟩

theorem Conforming.reproduces {vs : Fin 4 → Pt K} {r : Nat} (hc : Conforming vs r)
    (hs : StrictlyConvex vs) {f : Pt K → K} (hf : IsPoly r f) (x : Pt K) :
    interpolate (ds vs r) (dsrNodes vs r) f x = f x := by
  by_cases h1 : r = 1
  · subst h1
    obtain ⟨a, b, c, habc⟩ := isPoly_one hf
    obtain rfl : f = fun p => a + b * p.1 + c * p.2 := funext habc
    exact ds1_affine vs hs a b c x
  · have hr : 2 ≤ r := by rcases hc with rfl | rfl | ⟨h, _⟩ <;> omega
    refine reproduce (vs := vs) hr (hc.nodal hs) (ds_length vs r (by omega)) ?_ (InSpace.of_poly hf) x
    rw [ds, if_neg h1]
    exact dsr_inSpace hr (hc.flat h1)

/-- A combination of a nodal basis is the interpolant of its values. -/
theorem interpolate_span {fs : List (Pt K → K)} {ps : List (Pt K)}
    (hn : Spec.Serendipity.Nodal fs ps) {cs : List K} (hl : cs.length = fs.length) {F : Pt K → K}
    (hF : ∀ x, F x = ((List.zip cs fs).map fun q => q.1 * q.2 x).sum) (x : Pt K) :
    interpolate fs ps F x = F x := by
  have hps := hn.1
  have hc : ∀ (j : Nat) (h1 : j < ps.length) (h2 : j < cs.length), F ps[j] = cs[j] := by
    intro j h1 h2
    rw [hF]
    have e : (List.zip cs fs).map (fun q => q.1 * q.2 ps[j])
        = (List.range ps.length).map fun k => if k = j then cs[j] else 0 := by
      apply List.ext_getElem
      · simp [hl, hps]
      · intro k h3 h4
        simp only [List.getElem_map, List.getElem_zip, List.getElem_range]
        have hk : k < ps.length := by simpa using h4
        rw [hn.2 k j fs[k] ps[j] (List.getElem?_eq_getElem (by omega))
          (List.getElem?_eq_getElem h1)]
        split
        · next hkn => subst hkn; rw [mul_one]
        · rw [mul_zero]
    rw [e, sum_single h1]
  rw [hF x, interpolate]
  congr 1
  apply List.ext_getElem
  · simp [hl, hps]
  · intro k h3 h4
    simp only [List.getElem_map, List.getElem_zip]
    have hk : k < cs.length := by
      simp only [List.length_map, List.length_zip] at h4
      omega
    rw [hc k (by omega) hk]

end FInAT.Serendipity
