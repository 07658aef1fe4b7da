import Verif.Props.Traction

/-!
# C95: vector fields of the Piola-mapped elements are continuous across facets

Two physical cells, images of the same reference cell, have a facet in common. On each there is a vector field of the
element, given by coefficients in the basis that `basis_transformation` yields. If the coefficients of the common facet
and of the entities in its boundary agree, then all components of the two fields agree along the facet, and their
divergences where these are among the degrees of freedom.

`T` is the space of functions on a facet and `W` contains the restrictions of the components of the basis functions;
the nodes measure by functionals `l 0, l 1, ...` on `T`.
-/

namespace FInAT.Props

open Finset FInAT.Piola FInAT.Zany FInAT.Stress FInAT.Spec.PiolaNodes FInAT.Spec.Zany FInAT.PiolaNodes FInAT.Traction

variable {K A A' T : Type} [Field K] [AddCommGroup A] [Module K A] [AddCommGroup A'] [Module K A'] [AddCommGroup T]
  [Module K T] {d : Nat}

/-- Node `num f j c` is functional `l j` of component `c` on facet `f`. -/
def ValuesAt (node : Nat → Node K A d) (on : Nat → A →ₗ[K] T) (l : Nat → T →ₗ[K] K) (facets Q : Nat)
    (num : Nat → Nat → Fin d → Nat) : Prop :=
  ∀ f < facets, ∀ j < Q, ∀ c, node (num f j c) = .component (l j ∘ₗ on f) c

/-- Node `num f j` is functional `l j` of the divergence on facet `f`. -/
def DivergencesAt (node : Nat → Node K A d) (on : Nat → A →ₗ[K] T) (l : Nat → T →ₗ[K] K) (facets Q : Nat)
    (num : Nat → Nat → Nat) : Prop :=
  ∀ f < facets, ∀ j < Q, node (num f j) = .divergence (l j ∘ₗ on f)

/-- The components of the basis functions of the reference element are in `W` on facets. -/
def TracesIn (W : Submodule K T) (on : Nat → A →ₗ[K] T) (facets N : Nat) (φ : Nat → Fin d → A) : Prop :=
  ∀ k < N, ∀ f < facets, ∀ i, on f (φ k i) ∈ W

/-- Their divergences are in `W` on facets. -/
def DivergencesIn (W : Submodule K T) (on : Nat → A →ₗ[K] T) (D : Fin d → A →ₗ[K] A) (facets N : Nat)
    (φ : Nat → Fin d → A) : Prop :=
  ∀ k < N, ∀ f < facets, on f (∑ i, D i (φ k i)) ∈ W

/-- All components of the fields agree on the facet. -/
def SameValues (on : A →ₗ[K] T) (on' : A' →ₗ[K] T) (u : Fin d → A) (u' : Fin d → A') : Prop :=
  ∀ i, on (u i) = on' (u' i)

/-- The divergences, by the derivatives `E` and `E'` on the cells, agree on the facet. -/
def SameDivergence (on : A →ₗ[K] T) (on' : A' →ₗ[K] T) (E : Fin d → A →ₗ[K] A) (E' : Fin d → A' →ₗ[K] A')
    (u : Fin d → A) (u' : Fin d → A') : Prop :=
  on (∑ i, E i (u i)) = on' (∑ i, E' i (u' i))

theorem value_coef {t : Nat → Nat → Nat → K} {E : Fin d → A →ₗ[K] A} {J : Nat → Nat → K} {detJ : K}
    {node : Nat → Node K A d} {k M : Nat} {l : A →ₗ[K] K} {c : Fin d} (hk : node k = .component l c) {ψ : Nat → Fin d → A}
    (hψ : ∀ i < M, physNode t E J detJ node k (ψ i) = if k = i then 1 else 0) (a : Nat → K) :
    l (fieldOf M a ψ c) = if k < M then a k else 0 := by
  unfold fieldOf
  rw [Finset.sum_apply, map_sum]
  have : ∀ i ∈ range M, l ((a i • ψ i) c) = if k = i then a i else 0 := by
    intro i hi
    have := hψ i (Finset.mem_range.1 hi)
    unfold physNode at this
    rw [hk] at this
    rw [Pi.smul_apply, map_smul, show l _ = _ from this]
    split <;> simp
  rw [Finset.sum_congr rfl this]
  simp

theorem field_divergence {E : Fin d → A →ₗ[K] A} {M : Nat} (a : Nat → K) (ψ : Nat → Fin d → A) :
    ∑ i, E i (fieldOf M a ψ i) = ∑ k ∈ range M, a k • ∑ i, E i (ψ k i) := by
  unfold fieldOf
  simp only [Finset.sum_apply, Pi.smul_apply, map_sum, map_smul, Finset.smul_sum]
  rw [Finset.sum_comm]

theorem divergence_coef {t : Nat → Nat → Nat → K} {E : Fin d → A →ₗ[K] A} {J : Nat → Nat → K} {detJ : K}
    {node : Nat → Node K A d} {k M : Nat} {l : A →ₗ[K] K} (hk : node k = .divergence l) {ψ : Nat → Fin d → A}
    (hψ : ∀ i < M, physNode t E J detJ node k (ψ i) = if k = i then 1 else 0) (a : Nat → K) :
    l (∑ i, E i (fieldOf M a ψ i)) = if k < M then a k else 0 := by
  rw [field_divergence, map_sum]
  have : ∀ i ∈ range M, l (a i • ∑ j, E j (ψ i j)) = if k = i then a i else 0 := by
    intro i hi
    have := hψ i (Finset.mem_range.1 hi)
    unfold physNode at this
    rw [hk] at this
    rw [map_smul, show l _ = _ from this]
    split <;> simp
  rw [Finset.sum_congr rfl this]
  simp

theorem vector_traces {on : A →ₗ[K] T} {W : Submodule K T} {N M : Nat} {G : Nat → Nat → K} {J : Nat → Nat → K} {detJ : K}
    {φ : Nat → Fin d → A} (h : ∀ k < N, ∀ i, on (φ k i) ∈ W) (a : Nat → K) (i : Fin d) :
    on (fieldOf M a (vectorBasis N G J detJ φ) i) ∈ W := by
  unfold fieldOf vectorBasis piolaPush dotWith
  simp only [Finset.sum_apply, Pi.smul_apply, map_sum, map_smul]
  exact W.sum_mem fun r _ => W.smul_mem _ (W.sum_mem fun k hk => W.smul_mem _
    (W.smul_mem _ (W.sum_mem fun y _ => W.smul_mem _ (h k (Finset.mem_range.1 hk) y))))

/-- The divergence of a Piola image is the divergence over the determinant. -/
theorem push_divergence {J : Nat → Nat → K} {detJ : K} {D E : Fin d → A →ₗ[K] A} (m : CellMap J detJ D E)
    (u : Fin d → A) : ∑ i, E i (piolaPush J detJ u i) = detJ⁻¹ • ∑ i, D i (u i) := by
  unfold piolaPush dotWith
  simp only [map_smul, map_sum, m.chain, Finset.smul_sum]
  rw [Finset.sum_comm]

theorem divergence_traces {on : A →ₗ[K] T} {W : Submodule K T} {N M : Nat} {G : Nat → Nat → K} {J : Nat → Nat → K}
    {detJ : K} {D E : Fin d → A →ₗ[K] A} (m : CellMap J detJ D E) {φ : Nat → Fin d → A}
    (h : ∀ k < N, on (∑ i, D i (φ k i)) ∈ W) (a : Nat → K) :
    on (∑ i, E i (fieldOf M a (vectorBasis N G J detJ φ) i)) ∈ W := by
  rw [field_divergence, map_sum]
  refine W.sum_mem fun r _ => ?_
  rw [map_smul]
  refine W.smul_mem _ ?_
  have := field_divergence (E := E) (M := N) (G r) fun k => piolaPush J detJ (φ k)
  unfold fieldOf at this
  unfold vectorBasis
  rw [this, map_sum]
  refine W.sum_mem fun k hk => ?_
  rw [push_divergence m, map_smul, map_smul]
  exact W.smul_mem _ (W.smul_mem _ (h k (Finset.mem_range.1 hk)))

/-- Alfeld-Sorokina: the fields and their divergences are the same on the facet, if functions on it are determined by the
functionals that measure the values, and the restrictions of divergences by those that measure divergences. -/
theorem C95_alfeldSorokina (hd : 0 < d) (t : Nat → Nat → Nat → K) (dofs : List (List (List Nat))) (N : Nat)
    (hpart : Partitions dofs N) (deriv : Nat → Bool) (facets Q R : Nat)
    {W V : Submodule K T} {l r : Nat → T →ₗ[K] K} (hW : Unisolvent W l Q) (hV : Unisolvent V r R)
    {num : Nat → Nat → Fin d → Nat} {dnum : Nat → Nat → Nat} (hnum : ∀ f < facets, ∀ j < Q, ∀ c, num f j c < N)
    (hdnum : ∀ f < facets, ∀ j < R, dnum f j < N)
    -- one cell
    {on : Nat → A →ₗ[K] T} {J : Nat → Nat → K} {detJ : K} {D E : Fin d → A →ₗ[K] A} (m : CellMap J detJ D E)
    {node : Nat → Node K A d} (hder : ∀ k < N, deriv k = true ↔ ∃ l, node k = .divergence l)
    (hgroups : ∀ l ∈ dofs.flatten, ∃ gs : List (Group K A), l.map node = gs.flatMap (Group.nodes d))
    (hv : ValuesAt node on l facets Q num) (hr : DivergencesAt node on r facets R dnum)
    {φ : Nat → Fin d → A} (hφ : Nodal N (refNode t D node) φ) (htr : TracesIn W on facets N φ)
    (hdiv : DivergencesIn V on D facets N φ)
    -- the other cell
    {on' : Nat → A' →ₗ[K] T} {J' : Nat → Nat → K} {detJ' : K} {D' E' : Fin d → A' →ₗ[K] A'} (m' : CellMap J' detJ' D' E')
    {node' : Nat → Node K A' d} (hder' : ∀ k < N, deriv k = true ↔ ∃ l, node' k = .divergence l)
    (hgroups' : ∀ l ∈ dofs.flatten, ∃ gs : List (Group K A'), l.map node' = gs.flatMap (Group.nodes d))
    (hv' : ValuesAt node' on' l facets Q num) (hr' : DivergencesAt node' on' r facets R dnum)
    {φ' : Nat → Fin d → A'} (hφ' : Nodal N (refNode t D' node') φ') (htr' : TracesIn W on' facets N φ')
    (hdiv' : DivergencesIn V on' D' facets N φ')
    -- the common facet
    {e e' : Nat} (he : e < facets) (he' : e' < facets) {a a' : Nat → K}
    (ha : ∀ j < Q, ∀ c, a (num e j c) = a' (num e' j c)) (hb : ∀ j < R, a (dnum e j) = a' (dnum e' j)) :
    let u := fieldOf N a (vectorBasis N (alfeldSorokina d J detJ deriv dofs N).get J detJ φ)
    let u' := fieldOf N a' (vectorBasis N (alfeldSorokina d J' detJ' deriv dofs N).get J' detJ' φ')
    SameValues (on e) (on' e') u u' ∧ SameDivergence (on e) (on' e') E E' u u' := by
  intro u u'
  have hψ := C62_alfeldSorokina hd J detJ D E m t dofs N hpart node deriv hder hgroups φ hφ
  have hψ' := C62_alfeldSorokina hd J' detJ' D' E' m' t dofs N hpart node' deriv hder' hgroups' φ' hφ'
  refine ⟨fun i => sub_eq_zero.1 (hW _ (W.sub_mem (vector_traces (fun k hk => htr k hk e he) _ _)
    (vector_traces (fun k hk => htr' k hk e' he') _ _)) fun j hj => ?_),
    sub_eq_zero.1 (hV _ (V.sub_mem (divergence_traces m (fun k hk => hdiv k hk e he) _)
    (divergence_traces m' (fun k hk => hdiv' k hk e' he') _)) fun j hj => ?_)⟩
  · rw [map_sub, sub_eq_zero]
    refine (value_coef (hv e he j hj i) (hψ _ (hnum e he j hj i)) a).trans (Eq.trans ?_
      (value_coef (hv' e' he' j hj i) (hψ' _ (hnum e' he' j hj i)) a').symm)
    rw [if_pos (hnum e he j hj i), if_pos (hnum e' he' j hj i), ha j hj i]
  · rw [map_sub, sub_eq_zero]
    refine (divergence_coef (hr e he j hj) (hψ _ (hdnum e he j hj)) a).trans (Eq.trans ?_
      (divergence_coef (hr' e' he' j hj) (hψ' _ (hdnum e' he' j hj)) a').symm)
    rw [if_pos (hdnum e he j hj), if_pos (hdnum e' he' j hj), hb j hj]

/-- The numbers of the nodes of a facet: the first one is its degree of freedom in the reduced element, the others are
constraints. -/
theorem facet_numbers {N : Nat} {bfs : List (List (List Nat))} (hlay : BubbleLayout d N bfs) {f : Nat}
    (hf : f < (bfs.getD (d - 1) []).length) {node : Nat → Node K A d} {l : A →ₗ[K] K}
    (hn : ((bfs.getD (d - 1) []).getD f []).map node = (List.range d).map (Node.facet f l)) (q : Nat) (hq : q < d) :
    ∃ k < N, node k = .facet f l q ∧ (q = 0 → k < bubbleDim d bfs N ∧ ((bubbleDofs d bfs).getD (d - 1) []).getD f [] = [k]) ∧
      (q ≠ 0 → bubbleDim d bfs N ≤ k) := by
  have hdim : bubbleDim d bfs N = N - (((bfs.getD (d - 1) []).map (List.drop 1)).flatten).length := by
    unfold bubbleDim
    simp only [foldl_drop, Nat.zero_add]
  have hred := C39_bubble_dofs d N bfs hlay
  obtain ⟨hk, hp, hnorm, hlast⟩ := hlay
  set F := bfs.getD (d - 1) [] with hF
  have hlen : (F.getD f []).length = d := by
    have := congrArg List.length hn
    simpa using this
  have hmem : F.getD f [] ∈ F := by
    rw [List.getD_eq_getElem?_getD, List.getElem?_eq_getElem hf, Option.getD_some]
    exact List.getElem_mem hf
  have hFb : F ∈ bfs := by
    rw [hF, List.getD_eq_getElem?_getD, List.getElem?_eq_getElem hk, Option.getD_some]
    exact List.getElem_mem hk
  have hql : q < (F.getD f []).length := by omega
  refine ⟨(F.getD f [])[q], ?_, ?_, ?_, ?_⟩
  · exact List.mem_range.1 (hp.subset (List.mem_flatten.2 ⟨_, List.mem_flatten.2 ⟨F, hFb, hmem⟩, List.getElem_mem hql⟩))
  · have h1 : (((F.getD f []).map node))[q]? = ((List.range d).map (Node.facet f l))[q]? := by rw [hn]
    rw [List.getElem?_map, List.getElem?_map, List.getElem?_eq_getElem hql, List.getElem?_range hq] at h1
    exact Option.some.inj h1
  · rintro rfl
    obtain ⟨t, ht⟩ := hnorm f hf
    have hget : (F.getD f [])[0] = (F.getD 0 []).getD 0 0 + f := by
      simp only [ht, List.getElem_cons_zero]
    have hdofs : ((bubbleDofs d bfs).getD (d - 1) []).getD f [] = [(F.getD f [])[0]] := by
      unfold bubbleDofs
      simp only []
      rw [List.getD_eq_getElem?_getD (l := List.set _ _ _), List.getElem?_set_self hk, Option.getD_some,
        List.getD_eq_getElem?_getD, List.getElem?_map, List.getElem?_range hf, Option.map_some, Option.getD_some, hget]
    refine ⟨List.mem_range.1 (hred.subset (List.mem_flatten.2 ⟨[(F.getD f [])[0]], List.mem_flatten.2
      ⟨(bubbleDofs d bfs).getD (d - 1) [], ?_, ?_⟩, List.mem_singleton.2 rfl⟩)), hdofs⟩
    · have : d - 1 < (bubbleDofs d bfs).length := by unfold bubbleDofs; simpa using hk
      rw [List.getD_eq_getElem?_getD, List.getElem?_eq_getElem this, Option.getD_some]
      exact List.getElem_mem this
    · rw [← hdofs]
      have : f < ((bubbleDofs d bfs).getD (d - 1) []).length := by
        unfold bubbleDofs
        simp only []
        rw [List.getD_eq_getElem?_getD (l := List.set _ _ _), List.getElem?_set_self hk, Option.getD_some]
        rw [List.length_map, List.length_range]; exact hf
      rw [List.getD_eq_getElem?_getD (i := f), List.getElem?_eq_getElem this, Option.getD_some]
      exact List.getElem_mem this
  · intro h0
    rw [hdim]
    refine hlast _ hmem _ ?_
    obtain ⟨q, rfl⟩ := Nat.exists_eq_succ_of_ne_zero h0
    rw [List.mem_iff_getElem]
    refine ⟨q, by rw [List.length_drop]; omega, ?_⟩
    rw [List.getElem_drop]
    congr 1
    omega

variable [LinearOrder K] [IsStrictOrderedRing K]

/-- Elements with normal facet bubbles (Bernardi-Raugel, Guzman-Neilan, Christiansen-Hu, reduced Arnold-Qin): the fields
are the same on the facet. The values are measured by `l 0, ..., l (Q - 1)`, the bubbles by `l Q`; together they determine
functions on the facet. The coefficients of the facet are those that the reduced element numbers. -/
theorem C95_bubble (hd : d = 2 ∨ d = 3) (c : Facets K) (hsd : c.sd = d) (bfs : List (List (List Nat))) (N : Nat)
    (hlay : BubbleLayout d N bfs) (deriv : Nat → Bool) (hfacets : (bfs.getD (d - 1) []).length = c.num)
    (hgood : ∀ f < c.num, GoodFacet d (c.tangent f) (c.norm f)) (Q : Nat)
    {W : Submodule K T} {l : Nat → T →ₗ[K] K} (hW : Unisolvent W l (Q + 1))
    {num : Nat → Nat → Fin d → Nat} (hnum : ∀ f < c.num, ∀ j < Q, ∀ i, num f j i < bubbleDim d bfs N)
    -- one cell
    {on : Nat → A →ₗ[K] T} {J : Nat → Nat → K} {detJ : K} {D E : Fin d → A →ₗ[K] A} (m : CellMap J detJ D E)
    {node : Nat → Node K A d} (hder : ∀ k < N, deriv k = true ↔ ∃ l, node k = .divergence l)
    (hf : ∀ f < c.num, ((bfs.getD (d - 1) []).getD f []).map node = (List.range d).map (Node.facet f (l Q ∘ₗ on f)))
    (hgroups : ∀ q, q ≠ d - 1 → ∀ l ∈ bfs.getD q [], ∃ gs : List (Group K A), l.map node = gs.flatMap (Group.nodes d))
    (hv : ValuesAt node on l c.num Q num)
    {φ : Nat → Fin d → A} (hφ : Nodal N (refNode c.tangent D node) φ) (htr : TracesIn W on c.num N φ)
    -- the other cell
    {on' : Nat → A' →ₗ[K] T} {J' : Nat → Nat → K} {detJ' : K} {D' E' : Fin d → A' →ₗ[K] A'} (m' : CellMap J' detJ' D' E')
    {node' : Nat → Node K A' d} (hder' : ∀ k < N, deriv k = true ↔ ∃ l, node' k = .divergence l)
    (hf' : ∀ f < c.num, ((bfs.getD (d - 1) []).getD f []).map node' = (List.range d).map (Node.facet f (l Q ∘ₗ on' f)))
    (hgroups' : ∀ q, q ≠ d - 1 → ∀ l ∈ bfs.getD q [], ∃ gs : List (Group K A'),
      l.map node' = gs.flatMap (Group.nodes d))
    (hv' : ValuesAt node' on' l c.num Q num)
    {φ' : Nat → Fin d → A'} (hφ' : Nodal N (refNode c.tangent D' node') φ') (htr' : TracesIn W on' c.num N φ')
    -- the common facet
    {e e' : Nat} (he : e < c.num) (he' : e' < c.num)
    (ht : SameTangents d (images d J c.tangent e) (images d J' c.tangent e')) {a a' : Nat → K}
    (ha : ∀ j < Q, ∀ i, a (num e j i) = a' (num e' j i))
    (hb : (((bubbleDofs d bfs).getD (d - 1) []).getD e []).map a = (((bubbleDofs d bfs).getD (d - 1) []).getD e' []).map a') :
    SameValues (on e) (on' e')
      (fieldOf (bubbleDim d bfs N) a (vectorBasis N (bubble c J detJ deriv bfs N).get J detJ φ))
      (fieldOf (bubbleDim d bfs N) a' (vectorBasis N (bubble c J' detJ' deriv bfs N).get J' detJ' φ')) := by
  have hd0 : 0 < d := by omega
  have hψ := C62_bubble hd c hsd J detJ D E m bfs N hlay node deriv hder (by rw [hfacets]; exact hgood)
    (by rw [hfacets]; exact fun f h => ⟨_, hf f h⟩) hgroups φ hφ
  have hψ' := C62_bubble hd c hsd J' detJ' D' E' m' bfs N hlay node' deriv hder' (by rw [hfacets]; exact hgood)
    (by rw [hfacets]; exact fun f h => ⟨_, hf' f h⟩) hgroups' φ' hφ'
  have hMN : bubbleDim d bfs N ≤ N := by unfold bubbleDim; exact Nat.sub_le _ _
  set M := bubbleDim d bfs N with hM
  set u := fieldOf M a (vectorBasis N (bubble c J detJ deriv bfs N).get J detJ φ) with hu
  set u' := fieldOf M a' (vectorBasis N (bubble c J' detJ' deriv bfs N).get J' detJ' φ') with hu'
  have hmom : ∀ q < d, dotWith (frame d (images d J c.tangent e) q) (fun i => l Q (on e (u i)) - l Q (on' e' (u' i))) = 0 := by
    intro q hq
    rw [← dotWith_sub, sub_eq_zero]
    have h1 := dotWith_map (l Q ∘ₗ on e) (frame d (images d J c.tangent e) q) u
    have h2 := dotWith_map (l Q ∘ₗ on' e') (frame d (images d J c.tangent e) q) u'
    refine h1.symm.trans (Eq.trans ?_ h2)
    rw [dotWith_congr (frame_congr hd ht q hq) u']
    obtain ⟨k, hk, hn, hk0, hk1⟩ := facet_numbers hlay (by rw [hfacets]; exact he) (hf e he) q hq
    obtain ⟨k', hk', hn', hk0', hk1'⟩ := facet_numbers hlay (by rw [hfacets]; exact he') (hf' e' he') q hq
    refine (vector_coef hn (hψ k hk) a).trans (Eq.trans ?_ (vector_coef hn' (hψ' k' hk') a').symm)
    by_cases h0 : q = 0
    · obtain ⟨hlt, hd1⟩ := hk0 h0
      obtain ⟨hlt', hd1'⟩ := hk0' h0
      rw [hd1, hd1'] at hb
      rw [if_pos hlt, if_pos hlt']
      exact (List.cons.inj hb).1
    · rw [if_neg (Nat.not_lt.2 (hk1 h0)), if_neg (Nat.not_lt.2 (hk1' h0))]
  have hz := frame_basis hd (images d J c.tangent e)
    (image_normal hd J detJ m.det m.ne c.tangent e _ (hgood e he)) _ hmom
  intro i
  refine sub_eq_zero.1 (hW _ (W.sub_mem (vector_traces (fun k hk => htr k hk e he) _ _)
    (vector_traces (fun k hk => htr' k hk e' he') _ _)) fun j hj => ?_)
  rw [map_sub]
  by_cases hjQ : j < Q
  · rw [sub_eq_zero]
    have hlt := hnum e he j hjQ i
    have hlt' := hnum e' he' j hjQ i
    refine (value_coef (hv e he j hjQ i) (hψ _ (Nat.lt_of_lt_of_le hlt hMN)) a).trans (Eq.trans ?_
      (value_coef (hv' e' he' j hjQ i) (hψ' _ (Nat.lt_of_lt_of_le hlt' hMN)) a').symm)
    rw [if_pos hlt, if_pos hlt', ha j hjQ i]
  · obtain rfl : j = Q := by omega
    exact congrFun hz i

/-- Guzman-Neilan H1(div): where divergences are among the degrees of freedom they are the same on the facet. -/
theorem C95_bubble_divergence (hd : d = 2 ∨ d = 3) (c : Facets K) (hsd : c.sd = d) (bfs : List (List (List Nat))) (N : Nat)
    (hlay : BubbleLayout d N bfs) (deriv : Nat → Bool) (hfacets : (bfs.getD (d - 1) []).length = c.num)
    (hgood : ∀ f < c.num, GoodFacet d (c.tangent f) (c.norm f)) (R : Nat)
    {V : Submodule K T} {r : Nat → T →ₗ[K] K} (hV : Unisolvent V r R)
    {dnum : Nat → Nat → Nat} (hdnum : ∀ f < c.num, ∀ j < R, dnum f j < bubbleDim d bfs N)
    -- one cell
    {on : Nat → A →ₗ[K] T} {J : Nat → Nat → K} {detJ : K} {D E : Fin d → A →ₗ[K] A} (m : CellMap J detJ D E)
    {node : Nat → Node K A d} (hder : ∀ k < N, deriv k = true ↔ ∃ l, node k = .divergence l)
    (hf : ∀ f < c.num, ∃ l : A →ₗ[K] K, ((bfs.getD (d - 1) []).getD f []).map node = (List.range d).map (Node.facet f l))
    (hgroups : ∀ q, q ≠ d - 1 → ∀ l ∈ bfs.getD q [], ∃ gs : List (Group K A), l.map node = gs.flatMap (Group.nodes d))
    (hr : DivergencesAt node on r c.num R dnum)
    {φ : Nat → Fin d → A} (hφ : Nodal N (refNode c.tangent D node) φ) (hdiv : DivergencesIn V on D c.num N φ)
    -- the other cell
    {on' : Nat → A' →ₗ[K] T} {J' : Nat → Nat → K} {detJ' : K} {D' E' : Fin d → A' →ₗ[K] A'} (m' : CellMap J' detJ' D' E')
    {node' : Nat → Node K A' d} (hder' : ∀ k < N, deriv k = true ↔ ∃ l, node' k = .divergence l)
    (hf' : ∀ f < c.num, ∃ l : A' →ₗ[K] K, ((bfs.getD (d - 1) []).getD f []).map node' = (List.range d).map (Node.facet f l))
    (hgroups' : ∀ q, q ≠ d - 1 → ∀ l ∈ bfs.getD q [], ∃ gs : List (Group K A'),
      l.map node' = gs.flatMap (Group.nodes d))
    (hr' : DivergencesAt node' on' r c.num R dnum)
    {φ' : Nat → Fin d → A'} (hφ' : Nodal N (refNode c.tangent D' node') φ') (hdiv' : DivergencesIn V on' D' c.num N φ')
    -- the common facet
    {e e' : Nat} (he : e < c.num) (he' : e' < c.num) {a a' : Nat → K} (hb : ∀ j < R, a (dnum e j) = a' (dnum e' j)) :
    SameDivergence (on e) (on' e') E E'
      (fieldOf (bubbleDim d bfs N) a (vectorBasis N (bubble c J detJ deriv bfs N).get J detJ φ))
      (fieldOf (bubbleDim d bfs N) a' (vectorBasis N (bubble c J' detJ' deriv bfs N).get J' detJ' φ')) := by
  have hψ := C62_bubble hd c hsd J detJ D E m bfs N hlay node deriv hder (by rw [hfacets]; exact hgood)
    (by rw [hfacets]; exact hf) hgroups φ hφ
  have hψ' := C62_bubble hd c hsd J' detJ' D' E' m' bfs N hlay node' deriv hder' (by rw [hfacets]; exact hgood)
    (by rw [hfacets]; exact hf') hgroups' φ' hφ'
  have hMN : bubbleDim d bfs N ≤ N := by unfold bubbleDim; exact Nat.sub_le _ _
  refine sub_eq_zero.1 (hV _ (V.sub_mem (divergence_traces m (fun k hk => hdiv k hk e he) _)
    (divergence_traces m' (fun k hk => hdiv' k hk e' he') _)) fun j hj => ?_)
  rw [map_sub, sub_eq_zero]
  have hlt := hdnum e he j hj
  have hlt' := hdnum e' he' j hj
  refine (divergence_coef (hr e he j hj) (hψ _ (Nat.lt_of_lt_of_le hlt hMN)) a).trans (Eq.trans ?_
    (divergence_coef (hr' e' he' j hj) (hψ' _ (Nat.lt_of_lt_of_le hlt' hMN)) a').symm)
  rw [if_pos hlt, if_pos hlt', hb j hj]

/-! ### Concrete cases

Functions are given by their values at places, as in `TractionCases`. -/

namespace VectorCases

open TractionCases

/-- Values at the vertices of a triangle (places 0 to 2) and derivatives there (places 3 to 5) in the direction of the
first coordinate of the reference cell. -/
abbrev Tab6 := Fin 6 → ℚ

def slope6 (s : ℚ) : Tab6 →ₗ[ℚ] Tab6 where
  toFun f p := if p.1 < 3 then s * f (Fin.ofNat 6 (p.1 + 3)) else 0
  map_add' f g := by
    funext p
    simp only [Pi.add_apply]
    split
    · ring
    · ring
  map_smul' c f := by
    funext p
    simp only [Pi.smul_apply, smul_eq_mul, RingHom.id_apply]
    split
    · ring
    · ring

theorem map6 : CellMap StressCases.J21 2 ![slope6 1, slope6 0] ![slope6 (1 / 2), slope6 (-1 / 2)] where
  det := StressCases.det_J21
  ne := by norm_num
  chain := by
    intro i f
    funext p
    by_cases h : p.1 < 3 <;> fin_cases i <;> simp [slope6, StressCases.J21, h, Fin.sum_univ_two] <;> ring

theorem map6' : CellMap Jm (-2) ![slope6 1, slope6 0] ![slope6 (-1 / 2), slope6 2] where
  det := det_Jm
  ne := by norm_num
  chain := by
    intro i f
    funext p
    by_cases h : p.1 < 3 <;> fin_cases i <;> simp [slope6, Jm, h, Fin.sum_univ_two] <;> ring

def place (p : Nat) : Tab6 →ₗ[ℚ] ℚ := LinearMap.proj (Fin.ofNat 6 p)

def ends6 (f : Nat) : Tab6 →ₗ[ℚ] (Fin 2 → ℚ) := pick 2 ![Fin.ofNat 6 (Spec.Zany.ends f).1, Fin.ofNat 6 (Spec.Zany.ends f).2]

def end6 (f j : Nat) : Nat := if j = 0 then (Spec.Zany.ends f).1 else (Spec.Zany.ends f).2

def soNode (k : Nat) : Node ℚ Tab6 2 :=
  if k < 6 then .component (place (k / 2)) (Fin.ofNat 2 (k % 2)) else .divergence (place (k - 6))

def soBasis (k : Nat) : Fin 2 → Tab6 :=
  fun i p => if k < 6 then (if p.1 = k / 2 ∧ i.1 = k % 2 then 1 else 0) else if p.1 = k - 3 ∧ i.1 = 0 then 1 else 0

theorem so_nodal : Nodal 9 (refNode (fun _ _ _ => 0) ![slope6 1, slope6 0] soNode) soBasis := by
  unfold Nodal
  decide +kernel

theorem so_values : ValuesAt soNode ends6 (val 2) 3 2 fun f j c => 2 * end6 f j + c := by
  intro f hf j hj c
  interval_cases f <;> interval_cases j <;> fin_cases c <;> rfl

theorem so_divergences : DivergencesAt soNode ends6 (val 2) 3 2 fun f j => 6 + end6 f j := by
  intro f hf j hj
  interval_cases f <;> interval_cases j <;> rfl

def soDofs : List (List (List Nat)) := [[[0, 1, 6], [2, 3, 7], [4, 5, 8]], [[], [], []], [[]]]

theorem so_groups : ∀ l ∈ soDofs.flatten, ∃ gs : List (Group ℚ Tab6), l.map soNode = gs.flatMap (Group.nodes 2) := by
  intro l hl
  have : l = [0, 1, 6] ∨ l = [2, 3, 7] ∨ l = [4, 5, 8] ∨ l = [] := by
    simp only [soDofs, List.flatten_cons, List.flatten_nil, List.cons_append, List.nil_append, List.mem_cons,
      List.not_mem_nil, or_false] at hl
    tauto
  rcases this with rfl | rfl | rfl | rfl
  · exact ⟨[.vector (place 0), .divergence (place 0)], rfl⟩
  · exact ⟨[.vector (place 1), .divergence (place 1)], rfl⟩
  · exact ⟨[.vector (place 2), .divergence (place 2)], rfl⟩
  · exact ⟨[], rfl⟩

theorem so_deriv (k : Nat) (_ : k < 9) : decide (6 ≤ k) = true ↔ ∃ l, soNode k = .divergence l := by
  rw [decide_eq_true_eq]
  constructor
  · intro h
    exact ⟨_, by unfold soNode; rw [if_neg (by omega)]⟩
  · rintro ⟨l, h⟩
    unfold soNode at h
    split at h
    · cases h
    · omega

/-- Vertices 0 and 2 of the second cell are vertices 1 and 2 of the first one. -/
def moved (k : Nat) : ℚ := if k < 2 then k + 2 else if k = 6 then 7 else k

example := C95_alfeldSorokina (by decide) (fun _ _ _ => 0) soDofs 9 (by unfold Partitions; decide)
  (fun k => decide (6 ≤ k)) 3 2 2 (val_unisolvent 2) (val_unisolvent 2) (num := fun f j c => 2 * end6 f j + c)
  (dnum := fun f j => 6 + end6 f j) (by decide) (by decide)
  map6 so_deriv so_groups so_values so_divergences so_nodal (fun _ _ _ _ _ => trivial) (fun _ _ _ _ => trivial)
  map6' so_deriv so_groups so_values so_divergences so_nodal (fun _ _ _ _ _ => trivial) (fun _ _ _ _ => trivial)
  (e := 0) (e' := 1) (by decide) (by decide) (a := fun k => k) (a' := moved) (by decide +kernel) (by decide +kernel)

/-! Bernardi-Raugel on tetrahedra: places 0 to 3 are the vertices, 4 to 7 the facets. -/

abbrev Tab8 := Fin 8 → ℚ

/-- All facets have the tangents `(1, 0, 0)` and `(0, 1, 0)`. -/
def faces : Facets ℚ := ⟨3, 4, fun _ k i => if k = i then 1 else 0, fun _ => 1⟩

theorem faces_good (f : Nat) : GoodFacet 3 (faces.tangent f) (faces.norm f) :=
  ⟨fun h => absurd h (by decide), fun _ => ⟨2, by decide, by simp [vprod, faces]⟩⟩

def J3 : Nat → Nat → ℚ
  | 0, 0 => 2
  | 0, 2 => 1
  | 1, 1 => 1
  | 2, 2 => 1
  | _, _ => 0

def J3' : Nat → Nat → ℚ
  | 0, 0 => 2
  | 1, 1 => 1
  | 1, 2 => 3
  | 2, 2 => -1
  | _, _ => 0

theorem map8 : CellMap (A := Tab8) (d := 3) J3 2 (fun _ => 0) (fun _ => 0) where
  det := by rw [det, Matrix.det_fin_three]; simp [J3]
  ne := by norm_num
  chain := by simp

theorem map8' : CellMap (A := Tab8) (d := 3) J3' (-2) (fun _ => 0) (fun _ => 0) where
  det := by rw [det, Matrix.det_fin_three]; simp [J3']
  ne := by norm_num
  chain := by simp

theorem same8 (e e' : Nat) : SameTangents 3 (images 3 J3 faces.tangent e) (images 3 J3' faces.tangent e') := by
  intro k hk i hi
  have hk : k < 2 := by omega
  interval_cases k <;> interval_cases i <;>
    simp [images, imageOf, Finset.sum_range_succ, J3, J3', faces]

def at8 (p : Nat) : Tab8 →ₗ[ℚ] ℚ := LinearMap.proj (Fin.ofNat 8 p)

/-- The vertices of a facet of a tetrahedron. -/
def corner (f j : Nat) : Nat := if j < f then j else j + 1

/-- Values at the vertices of a facet and at its place. -/
def on8 (f : Nat) : Tab8 →ₗ[ℚ] (Fin 4 → ℚ) :=
  pick 4 ![Fin.ofNat 8 (corner f 0), Fin.ofNat 8 (corner f 1), Fin.ofNat 8 (corner f 2), Fin.ofNat 8 (4 + f)]

def tetNode (k : Nat) : Node ℚ Tab8 3 :=
  if k < 12 then .component (at8 (k / 3)) (Fin.ofNat 3 (k % 3))
  else if k < 16 then .facet (k - 12) (val 4 3 ∘ₗ on8 (k - 12)) 0
  else .facet ((k - 16) / 2) (val 4 3 ∘ₗ on8 ((k - 16) / 2)) ((k - 16) % 2 + 1)

def tetBasis (k : Nat) : Fin 3 → Tab8 := fun i p =>
  if k < 12 then (if p.1 = k / 3 ∧ i.1 = k % 3 then 1 else 0)
  else if k < 16 then (if p.1 = k - 8 ∧ i.1 = 2 then 1 else 0)
  else if p.1 = 4 + (k - 16) / 2 ∧ i.1 = (k - 16) % 2 then 1 else 0

theorem tet_nodal : Nodal 24 (refNode faces.tangent (fun _ => 0) tetNode) tetBasis := by
  unfold Nodal
  decide +kernel

theorem tet_values : ValuesAt tetNode on8 (val 4) 4 3 fun f j c => 3 * corner f j + c := by
  intro f hf j hj c
  interval_cases f <;> interval_cases j <;> fin_cases c <;> rfl

theorem tet_facets (f : Nat) (hf : f < 4) :
    ((brTet.getD 2 []).getD f []).map tetNode = (List.range 3).map (Node.facet f (val 4 3 ∘ₗ on8 f)) := by
  interval_cases f <;> rfl

theorem tet_groups : ∀ q, q ≠ 3 - 1 → ∀ l ∈ brTet.getD q [], ∃ gs : List (Group ℚ Tab8),
    l.map tetNode = gs.flatMap (Group.nodes 3) := by
  intro q hq l hl
  match q with
  | 0 =>
    have : l = [0, 1, 2] ∨ l = [3, 4, 5] ∨ l = [6, 7, 8] ∨ l = [9, 10, 11] := by simpa [brTet] using hl
    rcases this with rfl | rfl | rfl | rfl
    · exact ⟨[.vector (at8 0)], rfl⟩
    · exact ⟨[.vector (at8 1)], rfl⟩
    · exact ⟨[.vector (at8 2)], rfl⟩
    · exact ⟨[.vector (at8 3)], rfl⟩
  | 1 =>
    have : l = [] := by simpa [brTet] using hl
    subst this
    exact ⟨[], rfl⟩
  | 2 => exact absurd rfl hq
  | 3 =>
    have : l = [] := by simpa [brTet] using hl
    subst this
    exact ⟨[], rfl⟩
  | q + 4 => simp [brTet] at hl

theorem tet_deriv (k : Nat) (_ : k < 24) : false = true ↔ ∃ l, tetNode k = .divergence l := by
  constructor
  · intro h; cases h
  · rintro ⟨l, h⟩
    unfold tetNode at h
    split at h
    · cases h
    · split at h <;> cases h

/-- Vertices 0, 2, 3 of the second cell are vertices 1, 2, 3 of the first one. -/
def moved3 (k : Nat) : ℚ := if k < 3 then k + 3 else if k = 13 then 12 else k

example := C95_bubble (.inr rfl) faces rfl brTet 24 brTet_layout (fun _ => false) rfl (fun f _ => faces_good f) 3
  (val_unisolvent 4) (num := fun f j c => 3 * corner f j + c) (by decide)
  map8 tet_deriv tet_facets tet_groups tet_values tet_nodal (fun _ _ _ _ _ => trivial)
  map8' tet_deriv tet_facets tet_groups tet_values tet_nodal (fun _ _ _ _ _ => trivial)
  (e := 0) (e' := 1) (by decide) (by decide) (same8 0 1) (a := fun k => k) (a' := moved3) (by decide +kernel)
  (by decide +kernel)

/-! Values and divergences at the vertices of a triangle, and places on the edges (6 to 8). -/

abbrev Tab9 := Fin 9 → ℚ

def slope9 (s : ℚ) : Tab9 →ₗ[ℚ] Tab9 where
  toFun f p := if p.1 < 3 then s * f (Fin.ofNat 9 (p.1 + 3)) else 0
  map_add' f g := by
    funext p
    simp only [Pi.add_apply]
    split
    · ring
    · ring
  map_smul' c f := by
    funext p
    simp only [Pi.smul_apply, smul_eq_mul, RingHom.id_apply]
    split
    · ring
    · ring

theorem map9 : CellMap StressCases.J21 2 ![slope9 1, slope9 0] ![slope9 (1 / 2), slope9 (-1 / 2)] where
  det := StressCases.det_J21
  ne := by norm_num
  chain := by
    intro i f
    funext p
    by_cases h : p.1 < 3 <;> fin_cases i <;> simp [slope9, StressCases.J21, h, Fin.sum_univ_two] <;> ring

theorem map9' : CellMap Jm (-2) ![slope9 1, slope9 0] ![slope9 (-1 / 2), slope9 2] where
  det := det_Jm
  ne := by norm_num
  chain := by
    intro i f
    funext p
    by_cases h : p.1 < 3 <;> fin_cases i <;> simp [slope9, Jm, h, Fin.sum_univ_two] <;> ring

def place9 (p : Nat) : Tab9 →ₗ[ℚ] ℚ := LinearMap.proj (Fin.ofNat 9 p)

def ends9 (f : Nat) : Tab9 →ₗ[ℚ] (Fin 3 → ℚ) :=
  pick 3 ![Fin.ofNat 9 (Spec.Zany.ends f).1, Fin.ofNat 9 (Spec.Zany.ends f).2, Fin.ofNat 9 (6 + f)]

def gnNode (k : Nat) : Node ℚ Tab9 2 :=
  if k < 6 then .component (place9 (k / 2)) (Fin.ofNat 2 (k % 2))
  else if k < 9 then .divergence (place9 (k - 6))
  else .facet ((k - 9) % 3) (val 3 2 ∘ₗ ends9 ((k - 9) % 3)) ((k - 9) / 3)

def gnBasis (k : Nat) : Fin 2 → Tab9 := fun i p =>
  if k < 6 then (if p.1 = k / 2 ∧ i.1 = k % 2 then 1 else 0)
  else if k < 9 then (if p.1 = k - 3 ∧ i.1 = 0 then 1 else 0)
  else if p.1 = 6 + (k - 9) % 3 then (if k < 12 then ![4 / 25, -3 / 25] i else ![3 / 25, 4 / 25] i) else 0

theorem gn_nodal : Nodal 15 (refNode StressCases.edges34.tangent ![slope9 1, slope9 0] gnNode) gnBasis := by
  unfold Nodal
  decide +kernel

def gnDofs : List (List (List Nat)) :=
  [[[0, 1, 6], [2, 3, 7], [4, 5, 8]], [[9, 12], [10, 13], [11, 14]], [[]]]

theorem gn_layout : BubbleLayout 2 15 gnDofs :=
  ⟨by decide, by unfold Partitions; decide, by
    intro f hf
    have hf : f < 3 := hf
    interval_cases f
    · exact ⟨[12], rfl⟩
    · exact ⟨[13], rfl⟩
    · exact ⟨[14], rfl⟩, by decide⟩

theorem gn_deriv (k : Nat) (_ : k < 15) : decide (6 ≤ k ∧ k < 9) = true ↔ ∃ l, gnNode k = .divergence l := by
  rw [decide_eq_true_eq]
  constructor
  · intro h
    exact ⟨_, by unfold gnNode; rw [if_neg (by omega), if_pos h.2]⟩
  · rintro ⟨l, h⟩
    unfold gnNode at h
    split at h
    · cases h
    · split at h
      · omega
      · cases h

theorem gn_facets (f : Nat) (hf : f < 3) :
    ((gnDofs.getD 1 []).getD f []).map gnNode = (List.range 2).map (Node.facet f (val 3 2 ∘ₗ ends9 f)) := by
  interval_cases f <;> rfl

theorem gn_groups : ∀ q, q ≠ 2 - 1 → ∀ l ∈ gnDofs.getD q [], ∃ gs : List (Group ℚ Tab9),
    l.map gnNode = gs.flatMap (Group.nodes 2) := by
  intro q hq l hl
  match q with
  | 0 =>
    have : l = [0, 1, 6] ∨ l = [2, 3, 7] ∨ l = [4, 5, 8] := by simpa [gnDofs] using hl
    rcases this with rfl | rfl | rfl
    · exact ⟨[.vector (place9 0), .divergence (place9 0)], rfl⟩
    · exact ⟨[.vector (place9 1), .divergence (place9 1)], rfl⟩
    · exact ⟨[.vector (place9 2), .divergence (place9 2)], rfl⟩
  | 1 => exact absurd rfl hq
  | 2 =>
    have : l = [] := by simpa [gnDofs] using hl
    subst this
    exact ⟨[], rfl⟩
  | q + 3 => simp [gnDofs] at hl

theorem gn_values : ValuesAt gnNode ends9 (val 3) 3 2 fun f j c => 2 * end6 f j + c := by
  intro f hf j hj c
  interval_cases f <;> interval_cases j <;> fin_cases c <;> rfl

theorem gn_divergences : DivergencesAt gnNode ends9 (val 3) 3 2 fun f j => 6 + end6 f j := by
  intro f hf j hj
  interval_cases f <;> interval_cases j <;> rfl

/-- Divergences vanish at the places on edges. -/
def noEdge : Submodule ℚ (Fin 3 → ℚ) where
  carrier := {p | p 2 = 0}
  add_mem' := by intro p q hp hq; simp only [Set.mem_ofPred_eq, Pi.add_apply] at *; rw [hp, hq, add_zero]
  zero_mem' := rfl
  smul_mem' := by intro c p hp; simp only [Set.mem_ofPred_eq, Pi.smul_apply] at *; rw [hp, smul_zero]

theorem noEdge_unisolvent : Unisolvent (K := ℚ) noEdge (val 3) 2 := by
  intro p hp h
  funext i
  fin_cases i
  · exact h 0 (by decide)
  · exact h 1 (by decide)
  · exact hp

theorem gn_noEdge : DivergencesIn noEdge ends9 ![slope9 1, slope9 0] 3 15 gnBasis := by
  intro k _ f hf
  show (ends9 f) _ 2 = 0
  rw [Fin.sum_univ_two]
  interval_cases f <;> simp [ends9, pick, slope9, Fin.ofNat]

example := C95_bubble (.inl rfl) StressCases.edges34 rfl gnDofs 15 gn_layout (fun k => decide (6 ≤ k ∧ k < 9)) rfl
  (fun f _ => StressCases.edges34_good f) 2
  (val_unisolvent 3) (num := fun f j c => 2 * end6 f j + c) (by decide)
  map9 gn_deriv gn_facets gn_groups gn_values gn_nodal (fun _ _ _ _ _ => trivial)
  map9' gn_deriv gn_facets gn_groups gn_values gn_nodal (fun _ _ _ _ _ => trivial)
  (e := 0) (e' := 1) (by decide) (by decide) (same34 0 1) (a := fun k => if k = 9 then 5 else k)
  (a' := fun k => if k = 10 then 5 else moved k) (by decide +kernel) (by decide +kernel)

example := C95_bubble_divergence (.inl rfl) StressCases.edges34 rfl gnDofs 15 gn_layout
  (fun k => decide (6 ≤ k ∧ k < 9)) rfl (fun f _ => StressCases.edges34_good f) 2
  noEdge_unisolvent (dnum := fun f j => 6 + end6 f j) (by decide)
  map9 gn_deriv (fun f hf => ⟨_, gn_facets f hf⟩) gn_groups gn_divergences gn_nodal gn_noEdge
  map9' gn_deriv (fun f hf => ⟨_, gn_facets f hf⟩) gn_groups gn_divergences gn_nodal gn_noEdge
  (e := 0) (e' := 1) (by decide) (by decide) (a := fun k => k) (a' := moved) (by decide +kernel)

end VectorCases

end FInAT.Props
