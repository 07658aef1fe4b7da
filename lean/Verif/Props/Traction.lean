import Verif.Lemmas.Traction
import Verif.Spec.Smooth

/-!
# C93: normal components and tractions are continuous across facets

Two physical cells, images of the same reference cell, have a facet in common. On each there is a field of the element,
given by coefficients in the basis that `basis_transformation` yields. If the coefficients of the common facet (and of
its vertices) agree, the tractions of the two fields along the facet agree.

`T` is the space of functions on a facet and `W` contains the restrictions of the components of the basis functions;
the nodes on facets measure by functionals `l 0, l 1, ...` on `T`.
-/

namespace FInAT.Props

open Finset FInAT.Piola FInAT.Zany FInAT.Stress FInAT.Spec.PiolaNodes FInAT.Spec.Zany FInAT.PiolaNodes FInAT.Traction

variable {K A A' T : Type} [Field K] [AddCommGroup A] [Module K A] [AddCommGroup A'] [Module K A'] [AddCommGroup T]
  [Module K T] {d : Nat}

/-- One cell: the matrix of its map, and a basis of `N` symmetric tensor fields of the reference element that are nodal
for `node` and have components in `W` on facets. -/
structure StressCell (d : Nat) (c : Facets K) (on : Nat → A →ₗ[K] T) (W : Submodule K T) (N : Nat) (J : Nat → Nat → K)
    (detJ : K) (node : Nat → SNode K A d) (φ : Nat → Fin d → Fin d → A) : Prop where
  det : detJ = det d J
  ne : detJ ≠ 0
  symm : ∀ k < N, ∀ i j, φ k i j = φ k j i
  traces : ∀ k < N, ∀ f < c.num, ∀ i j, on f (φ k i j) ∈ W
  nodal : Nodal N (refStress c.tangent node) φ

/-- From number `cur` on there are, facet by facet, the functionals `l 0, ..., l (P - 1)` of the `d` components of the
traction. -/
def MomentsAt (node : Nat → SNode K A d) (on : Nat → A →ₗ[K] T) (l : Nat → T →ₗ[K] K) (facets P cur : Nat) : Prop :=
  ∀ f < facets, ∀ m < P, ∀ q < d, node (cur + (d * P * f + m * d + q)) = .facet f (l m ∘ₗ on f) q

/-- The first nine nodes are the components at the vertices of a triangle, and the values at the vertices are those at
the ends of the edges. -/
structure VertexNodes (node : Nat → SNode K A 2) (on : Nat → A →ₗ[K] T) (start stop : T →ₗ[K] K)
    (ev : Nat → A →ₗ[K] K) : Prop where
  nodes : ∀ v < 3, node (3 * v) = .component (some v) (ev v) 0 0 ∧ node (3 * v + 1) = .component (some v) (ev v) 0 1 ∧
    node (3 * v + 2) = .component (some v) (ev v) 1 1
  ends : ∀ e < 3, ∀ f, start (on e f) = ev (ends e).1 f ∧ stop (on e f) = ev (ends e).2 f

/-- The tractions of `S` and `S'` for the normal of the common facet are the same along it. -/
def SameTraction (on : A →ₗ[K] T) (on' : A' →ₗ[K] T) (n : Nat → K) (S : Fin d → Fin d → A) (S' : Fin d → Fin d → A') :
    Prop := ∀ i, on (traction n S i) = on' (traction n S' i)

/-! ### From nodality to tractions -/

theorem MomentsAt.tractions {node : Nat → SNode K A d} {on : Nat → A →ₗ[K] T} {l : Nat → T →ₗ[K] K} {facets P cur : Nat}
    (h : MomentsAt node on l facets P cur) : TractionsAt node facets P cur :=
  fun f hf m hm => ⟨_, fun q hq => h f hf m hm q hq⟩

theorem VertexNodes.components {node : Nat → SNode K A 2} {on : Nat → A →ₗ[K] T} {start stop : T →ₗ[K] K}
    {ev : Nat → A →ₗ[K] K} (h : VertexNodes node on start stop ev) (v : Nat) (hv : v < 3) :
    ComponentsAt node (some v) (3 * v) := by
  obtain ⟨h0, h1, h2⟩ := h.nodes v hv
  refine ⟨ev v, fun q hq => ?_⟩
  rw [show (pairs 2).length = 3 by decide] at hq
  match q, hq with
  | 0, _ => exact ⟨0, 0, rfl, h0⟩
  | 1, _ => exact ⟨0, 1, rfl, h1⟩
  | 2, _ => exact ⟨1, 1, rfl, h2⟩

theorem facet_coef {h : Nat → K} {t : Nat → Nat → Nat → K} {J : Nat → Nat → K} {detJ : K} {node : Nat → SNode K A d}
    {k f q M : Nat} {l : A →ₗ[K] K} (hk : node k = .facet f l q) {ψ : Nat → Fin d → Fin d → A}
    (hψ : ∀ i < M, physStress h t J detJ node k (ψ i) = if k = i then 1 else 0) (a : Nat → K) :
    l (dotWith (frame d (images d J t f) q) (traction (frame d (images d J t f) 0) (fieldOf M a ψ))) =
      if k < M then a k else 0 := by
  rw [traction_field, dotWith_field, map_sum]
  have : ∀ i ∈ range M, l (a i • dotWith (frame d (images d J t f) q) (traction (frame d (images d J t f) 0) (ψ i))) =
      if k = i then a i else 0 := by
    intro i hi
    have := hψ i (Finset.mem_range.1 hi)
    unfold physStress at this
    rw [hk] at this
    rw [map_smul, show l _ = _ from this]
    split <;> simp
  rw [Finset.sum_congr rfl this]
  simp

theorem component_coef {h : Nat → K} {t : Nat → Nat → Nat → K} {J : Nat → Nat → K} {detJ : K} {node : Nat → SNode K A d}
    {k v M : Nat} {i j : Fin d} {l : A →ₗ[K] K} (hk : node k = .component (some v) l i j)
    {ψ : Nat → Fin d → Fin d → A}
    (hψ : ∀ i < M, physStress h t J detJ node k (ψ i) = if k = i then 1 else 0) (a : Nat → K) :
    h v * h v * l (fieldOf M a ψ i j) = if k < M then a k else 0 := by
  have e : fieldOf M a ψ i j = ∑ r ∈ range M, a r • ψ r i j := by
    unfold fieldOf; simp [Finset.sum_apply]
  rw [e, map_sum, Finset.mul_sum]
  have : ∀ r ∈ range M, h v * h v * l (a r • ψ r i j) = if k = r then a r else 0 := by
    intro r hr
    have := hψ r (Finset.mem_range.1 hr)
    unfold physStress at this
    rw [hk] at this
    rw [map_smul, smul_eq_mul, mul_left_comm, show h v * h v * l (ψ r i j) = _ from this]
    split <;> simp
  rw [Finset.sum_congr rfl this]
  simp

theorem field_traces {on : A →ₗ[K] T} {W : Submodule K T} {N M : Nat} {G : Nat → Nat → K} {J : Nat → Nat → K} {detJ : K}
    {φ : Nat → Fin d → Fin d → A} (hφ : ∀ k < N, ∀ i j, on (φ k i j) ∈ W) (a : Nat → K) (i j : Fin d) :
    on (fieldOf M a (tensorBasis N G J detJ φ) i j) ∈ W := by
  unfold fieldOf tensorBasis doublePush
  simp only [Finset.sum_apply, Pi.smul_apply, map_sum, map_smul]
  exact W.sum_mem fun r _ => W.smul_mem _ (W.sum_mem fun k hk => W.smul_mem _ (W.smul_mem _
    (W.sum_mem fun x _ => W.sum_mem fun y _ => W.smul_mem _ (hφ k (Finset.mem_range.1 hk) x y))))

theorem field_symm {N M : Nat} {G : Nat → Nat → K} {J : Nat → Nat → K} {detJ : K}
    {φ : Nat → Fin d → Fin d → A} (hφ : ∀ k < N, ∀ i j, φ k i j = φ k j i) (a : Nat → K) (i j : Fin d) :
    fieldOf M a (tensorBasis N G J detJ φ) i j = fieldOf M a (tensorBasis N G J detJ φ) j i := by
  unfold fieldOf tensorBasis doublePush
  simp only [Finset.sum_apply, Pi.smul_apply]
  refine Finset.sum_congr rfl fun r _ => ?_
  congr 1
  refine Finset.sum_congr rfl fun k hk => ?_
  congr 2
  rw [Finset.sum_comm]
  exact Finset.sum_congr rfl fun x _ => Finset.sum_congr rfl fun y _ => by
    rw [mul_comm, hφ k (Finset.mem_range.1 hk) y x]

theorem form_traces {on : A →ₗ[K] T} {W : Submodule K T} {S : Fin d → Fin d → A} (h : ∀ i j, on (S i j) ∈ W)
    (v n : Nat → K) : on (dotWith v (traction n S)) ∈ W := by
  unfold traction dotWith
  simp only [map_sum, map_smul]
  exact W.sum_mem fun x _ => W.smul_mem _ (W.sum_mem fun y _ => W.smul_mem _ (h x y))

theorem traction_congr {n n' : Nat → K} (h : ∀ i < d, n i = n' i) (S : Fin d → Fin d → A) :
    traction n S = traction n' S := by
  funext i; exact dotWith_congr h _

/-- One component of the traction. -/
theorem same_component (hd : d = 2 ∨ d = 3) {W : Submodule K T} {l : Nat → T →ₗ[K] K} {P : Nat} (hW : Unisolvent W l P)
    {on : A →ₗ[K] T} {on' : A' →ₗ[K] T} {t t' : Nat → Nat → K} (ht : SameTangents d t t')
    {S : Fin d → Fin d → A} {S' : Fin d → Fin d → A'} (h : ∀ i j, on (S i j) ∈ W) (h' : ∀ i j, on' (S' i j) ∈ W)
    (q : Nat) (hq : q < d)
    (hl : ∀ m < P, l m (on (dotWith (frame d t q) (traction (frame d t 0) S))) =
      l m (on' (dotWith (frame d t' q) (traction (frame d t' 0) S')))) :
    on (dotWith (frame d t q) (traction (frame d t 0) S)) = on' (dotWith (frame d t q) (traction (frame d t 0) S')) := by
  have e : on' (dotWith (frame d t q) (traction (frame d t 0) S')) =
      on' (dotWith (frame d t' q) (traction (frame d t' 0) S')) := by
    rw [traction_congr (frame_congr hd ht 0 (by omega)), dotWith_congr (frame_congr hd ht q hq)]
  rw [e]
  refine sub_eq_zero.1 (hW _ (W.sub_mem (form_traces h _ _) (form_traces h' _ _)) fun m hm => ?_)
  rw [map_sub, hl m hm, sub_self]

theorem vector_coef {t : Nat → Nat → Nat → K} {E : Fin d → A →ₗ[K] A} {J : Nat → Nat → K} {detJ : K}
    {node : Nat → Node K A d} {k f q M : Nat} {l : A →ₗ[K] K} (hk : node k = .facet f l q) {ψ : Nat → Fin d → A}
    (hψ : ∀ i < M, physNode t E J detJ node k (ψ i) = if k = i then 1 else 0) (a : Nat → K) :
    l (dotWith (frame d (images d J t f) q) (fieldOf M a ψ)) = if k < M then a k else 0 := by
  rw [dotWith_field, map_sum]
  have : ∀ i ∈ range M, l (a i • dotWith (frame d (images d J t f) q) (ψ i)) = if k = i then a i else 0 := by
    intro i hi
    have := hψ i (Finset.mem_range.1 hi)
    unfold physNode at this
    rw [hk] at this
    rw [map_smul, show l _ = _ from this]
    split <;> simp
  rw [Finset.sum_congr rfl this]
  simp

variable [LinearOrder K] [IsStrictOrderedRing K]

theorem same_traction (hd : d = 2 ∨ d = 3) {W : Submodule K T} {l : Nat → T →ₗ[K] K} {P : Nat} (hW : Unisolvent W l P)
    {on : A →ₗ[K] T} {on' : A' →ₗ[K] T} {t t' : Nat → Nat → K} (ht : SameTangents d t t')
    (hn : ∃ i < d, frame d t 0 i ≠ 0)
    {S : Fin d → Fin d → A} {S' : Fin d → Fin d → A'} (h : ∀ i j, on (S i j) ∈ W) (h' : ∀ i j, on' (S' i j) ∈ W)
    (hl : ∀ q < d, ∀ m < P, l m (on (dotWith (frame d t q) (traction (frame d t 0) S))) =
      l m (on' (dotWith (frame d t' q) (traction (frame d t' 0) S')))) :
    SameTraction on on' (frame d t 0) S S' := by
  have := frame_basis hd t hn (fun i => on (traction (frame d t 0) S i) - on' (traction (frame d t 0) S' i)) fun q hq => by
    rw [← dotWith_sub, ← dotWith_map, ← dotWith_map, same_component hd hW ht h h' q hq (hl q hq), sub_self]
  intro i
  exact sub_eq_zero.1 (congrFun this i)

/-- Johnson-Mercier, in two and three dimensions. -/
theorem C93_johnsonMercier (hd : d = 2 ∨ d = 3) (c : Facets K) (hsd : c.sd = d)
    (hgood : ∀ f < c.num, GoodFacet d (c.tangent f) (c.norm f)) (P N M : Nat) (hM : M ≤ N) (hP : c.num * (d * P) ≤ M)
    {W : Submodule K T} {l : Nat → T →ₗ[K] K} (hW : Unisolvent W l P)
    -- one cell
    {on : Nat → A →ₗ[K] T} {J : Nat → Nat → K} {detJ : K} {node : Nat → SNode K A d} {φ : Nat → Fin d → Fin d → A}
    (C : StressCell d c on W N J detJ node φ) (hf : MomentsAt node on l c.num P 0)
    (hr : ∀ k < N, c.num * (d * P) ≤ k → Invariant node c.num k)
    -- the other cell
    {on' : Nat → A' →ₗ[K] T} {J' : Nat → Nat → K} {detJ' : K} {node' : Nat → SNode K A' d} {φ' : Nat → Fin d → Fin d → A'}
    (C' : StressCell d c on' W N J' detJ' node' φ') (hf' : MomentsAt node' on' l c.num P 0)
    (hr' : ∀ k < N, c.num * (d * P) ≤ k → Invariant node' c.num k)
    -- the common facet
    {e e' : Nat} (he : e < c.num) (he' : e' < c.num)
    (ht : SameTangents d (images d J c.tangent e) (images d J' c.tangent e')) {a a' : Nat → K}
    (ha : ∀ k < d * P, a (e * (d * P) + k) = a' (e' * (d * P) + k)) :
    SameTraction (on e) (on' e') (frame d (images d J c.tangent e) 0)
      (fieldOf M a (tensorBasis N (johnsonMercier c J detJ P N M).get J detJ φ))
      (fieldOf M a' (tensorBasis N (johnsonMercier c J' detJ' P N M).get J' detJ' φ')) := by
  have hidx : ∀ e < c.num, ∀ q < d, ∀ m < P, 0 + (d * P * e + m * d + q) = e * (d * P) + (m * d + q) ∧
      m * d + q < d * P ∧ 0 + (d * P * e + m * d + q) < M := by
    intro e he q hq m hm
    have h1 : m * d + q < d * P := by
      have : (m + 1) * d ≤ P * d := Nat.mul_le_mul_right d hm
      rw [mul_comm d P]
      have h2 : (m + 1) * d = m * d + d := by ring
      omega
    have h2 : (e + 1) * (d * P) ≤ c.num * (d * P) := Nat.mul_le_mul_right _ he
    have h3 : (e + 1) * (d * P) = e * (d * P) + d * P := by ring
    have h4 : d * P * e = e * (d * P) := by ring
    omega
  refine same_traction hd hW ht (image_normal hd J detJ C.det C.ne c.tangent e _ (hgood e he))
    (field_traces (fun k hk i j => C.traces k hk e he i j) a) (field_traces (fun k hk i j => C'.traces k hk e' he' i j) a')
    fun q hq m hm => ?_
  obtain ⟨i1, i2, i3⟩ := hidx e he q hq m hm
  obtain ⟨j1, j2, j3⟩ := hidx e' he' q hq m hm
  have h1 := facet_coef (hf e he m hm q hq) (M := M) (h := fun _ => 1) (t := c.tangent) (J := J) (detJ := detJ)
    (fun i hi => C63_johnsonMercier hd c hsd J detJ C.det C.ne hgood P N M hM (by omega) node hf.tractions hr
      (fun _ => 1) φ C.symm C.nodal _ (by omega) i hi) a
  have h2 := facet_coef (hf' e' he' m hm q hq) (M := M) (h := fun _ => 1) (t := c.tangent) (J := J') (detJ := detJ')
    (fun i hi => C63_johnsonMercier hd c hsd J' detJ' C'.det C'.ne hgood P N M hM (by omega) node' hf'.tractions hr'
      (fun _ => 1) φ' C'.symm C'.nodal _ (by omega) i hi) a'
  rw [if_pos i3, i1, ha _ i2] at h1
  rw [if_pos j3, j1] at h2
  exact h1.trans h2.symm

/-- The values at the ends of the common edge. -/
theorem same_ends {node : Nat → SNode K A 2} {on : Nat → A →ₗ[K] T} {start stop : T →ₗ[K] K} {ev : Nat → A →ₗ[K] K}
    (V : VertexNodes node on start stop ev)
    {node' : Nat → SNode K A' 2} {on' : Nat → A' →ₗ[K] T} {ev' : Nat → A' →ₗ[K] K}
    (V' : VertexNodes node' on' start stop ev') {e e' : Nat} (he : e < 3) (he' : e' < 3)
    {t t' : Nat → Nat → K} (ht : SameTangents 2 t t') {S : Fin 2 → Fin 2 → A} {S' : Fin 2 → Fin 2 → A'}
    (h1 : ∀ i j, ev (ends e).1 (S i j) = ev' (ends e').1 (S' i j))
    (h2 : ∀ i j, ev (ends e).2 (S i j) = ev' (ends e').2 (S' i j)) (q : Nat) (hq : q < 2) :
    start (on e (dotWith (frame 2 t q) (traction (frame 2 t 0) S))) =
      start (on' e' (dotWith (frame 2 t' q) (traction (frame 2 t' 0) S'))) ∧
    stop (on e (dotWith (frame 2 t q) (traction (frame 2 t 0) S))) =
      stop (on' e' (dotWith (frame 2 t' q) (traction (frame 2 t' 0) S'))) := by
  rw [← traction_congr (frame_congr (.inl rfl) ht 0 (by omega)) S', ← dotWith_congr (frame_congr (.inl rfl) ht q hq)]
  rw [(V.ends e he _).1, (V.ends e he _).2, (V'.ends e' he' _).1, (V'.ends e' he' _).2]
  constructor
  · rw [dotWith_map, dotWith_map]
    congr 1; funext i
    unfold traction
    rw [dotWith_map, dotWith_map]
    congr 1; funext j
    exact h1 i j
  · rw [dotWith_map, dotWith_map]
    congr 1; funext i
    unfold traction
    rw [dotWith_map, dotWith_map]
    congr 1; funext j
    exact h2 i j

/-- The components at a vertex. -/
theorem vertex_values {node : Nat → SNode K A 2} {on : Nat → A →ₗ[K] T} {start stop : T →ₗ[K] K} {ev : Nat → A →ₗ[K] K}
    (V : VertexNodes node on start stop ev)
    {node' : Nat → SNode K A' 2} {on' : Nat → A' →ₗ[K] T} {ev' : Nat → A' →ₗ[K] K}
    (V' : VertexNodes node' on' start stop ev') {h h' : Nat → K} {v v' : Nat} (hv : v < 3) (hv' : v' < 3)
    (h0 : h v ≠ 0) (hh : h v = h' v') {t : Nat → Nat → Nat → K} {J J' : Nat → Nat → K} {detJ detJ' : K}
    {ψ : Nat → Fin 2 → Fin 2 → A} {ψ' : Nat → Fin 2 → Fin 2 → A'} {M : Nat} (hM : 9 ≤ M)
    (hψ : ∀ k < 9, ∀ i < M, physStress h t J detJ node k (ψ i) = if k = i then 1 else 0)
    (hψ' : ∀ k < 9, ∀ i < M, physStress h' t J' detJ' node' k (ψ' i) = if k = i then 1 else 0) {a a' : Nat → K}
    (ha : ∀ k < 3, a (v * 3 + k) = a' (v' * 3 + k))
    (hs : ∀ i j, fieldOf M a ψ i j = fieldOf M a ψ j i) (hs' : ∀ i j, fieldOf M a' ψ' i j = fieldOf M a' ψ' j i)
    (i j : Fin 2) : ev v (fieldOf M a ψ i j) = ev' v' (fieldOf M a' ψ' i j) := by
  obtain ⟨n0, n1, n2⟩ := V.nodes v hv
  obtain ⟨n0', n1', n2'⟩ := V'.nodes v' hv'
  have key : ∀ {k : Nat} {i j : Fin 2}, k < 3 → node (3 * v + k) = .component (some v) (ev v) i j →
      node' (3 * v' + k) = .component (some v') (ev' v') i j →
      ev v (fieldOf M a ψ i j) = ev' v' (fieldOf M a' ψ' i j) := by
    intro k i j hk hn hn'
    have e1 := component_coef hn (hψ _ (by omega)) a
    have e2 := component_coef hn' (hψ' _ (by omega)) a'
    rw [if_pos (by omega), mul_comm 3 v, ha k hk] at e1
    rw [if_pos (by omega), mul_comm 3 v', ← hh] at e2
    exact mul_left_cancel₀ (mul_ne_zero h0 h0) (e1.trans e2.symm)
  have k0 := key (k := 0) (by omega) n0 n0'
  have k1 := key (k := 1) (by omega) n1 n1'
  have k2 := key (k := 2) (by omega) n2 n2'
  fin_cases i <;> fin_cases j
  · exact k0
  · exact k1
  · show ev v (fieldOf M a ψ 1 0) = ev' v' (fieldOf M a' ψ' 1 0)
    rw [hs, hs']; exact k1
  · exact k2

/-- Cells with nodes at vertices: if the functions are nodal then tractions are the same. -/
theorem vertex_tractions (c : Facets K) (hnum : c.num = 3)
    (hgood : ∀ f < 3, GoodFacet 2 (c.tangent f) (c.norm f)) (P N M : Nat) (hP : 9 + 6 * P ≤ M)
    {W : Submodule K T} {l : Nat → T →ₗ[K] K} {start stop : T →ₗ[K] K}
    (hW : Unisolvent W (withEnds start stop l) (P + 2)) {h h' : Nat → K} (hh : ∀ v < 3, h v ≠ 0)
    {on : Nat → A →ₗ[K] T} {J : Nat → Nat → K} {detJ : K} {node : Nat → SNode K A 2} {φ : Nat → Fin 2 → Fin 2 → A}
    {ev : Nat → A →ₗ[K] K} (C : StressCell 2 c on W N J detJ node φ) (hv : VertexNodes node on start stop ev)
    (hf : MomentsAt node on l 3 P 9) {G : Nat → Nat → K}
    (hψ : ∀ k < 9 + 6 * P, ∀ i < M, physStress h c.tangent J detJ node k (tensorBasis N G J detJ φ i) =
      if k = i then 1 else 0)
    {on' : Nat → A' →ₗ[K] T} {J' : Nat → Nat → K} {detJ' : K} {node' : Nat → SNode K A' 2} {φ' : Nat → Fin 2 → Fin 2 → A'}
    {ev' : Nat → A' →ₗ[K] K} (C' : StressCell 2 c on' W N J' detJ' node' φ') (hv' : VertexNodes node' on' start stop ev')
    (hf' : MomentsAt node' on' l 3 P 9) {G' : Nat → Nat → K}
    (hψ' : ∀ k < 9 + 6 * P, ∀ i < M, physStress h' c.tangent J' detJ' node' k (tensorBasis N G' J' detJ' φ' i) =
      if k = i then 1 else 0)
    {e e' : Nat} (he : e < 3) (he' : e' < 3)
    (ht : SameTangents 2 (images 2 J c.tangent e) (images 2 J' c.tangent e'))
    (hstart : h (ends e).1 = h' (ends e').1) (hstop : h (ends e).2 = h' (ends e').2) {a a' : Nat → K}
    (hv0 : SameAtEnds 3 e e' a a') (ha : SameOnEdge 3 (2 * P) e e' a a') :
    SameTraction (on e) (on' e') (frame 2 (images 2 J c.tangent e) 0)
      (fieldOf M a (tensorBasis N G J detJ φ)) (fieldOf M a' (tensorBasis N G' J' detJ' φ')) := by
  have hends : ∀ e, (ends e).1 < 3 ∧ (ends e).2 < 3 := by
    intro e; unfold ends; split
    · decide
    · split <;> decide
  have hs := field_symm (M := M) (G := G) (J := J) (detJ := detJ) C.symm a
  have hs' := field_symm (M := M) (G := G') (J := J') (detJ := detJ') C'.symm a'
  have v1 := vertex_values hv hv' (hends e).1 (hends e').1 (hh _ (hends e).1) hstart (t := c.tangent) (by omega)
    (fun k hk => hψ k (by omega)) (fun k hk => hψ' k (by omega)) (fun k hk => (hv0 k hk).1) hs hs'
  have v2 := vertex_values hv hv' (hends e).2 (hends e').2 (hh _ (hends e).2) hstop (t := c.tangent) (by omega)
    (fun k hk => hψ k (by omega)) (fun k hk => hψ' k (by omega)) (fun k hk => (hv0 k hk).2) hs hs'
  refine same_traction (.inl rfl) hW ht (image_normal (.inl rfl) J detJ C.det C.ne c.tangent e _ (hgood e he))
    (field_traces (fun k hk i j => C.traces k hk e (by omega) i j) a)
    (field_traces (fun k hk i j => C'.traces k hk e' (by omega) i j) a') fun q hq m hm => ?_
  obtain ⟨s1, s2⟩ := same_ends hv hv' he he' ht v1 v2 q hq
  match m with
  | 0 => exact s1
  | 1 => exact s2
  | m + 2 =>
    have hm : m < P := by omega
    have hidx : ∀ e < 3, 9 + (2 * P * e + m * 2 + q) = 3 * 3 + e * (2 * P) + (m * 2 + q) ∧
        9 + (2 * P * e + m * 2 + q) < 9 + 6 * P := by
      intro e he
      have h1 : (e + 1) * (2 * P) ≤ 3 * (2 * P) := Nat.mul_le_mul_right _ he
      have h2 : (e + 1) * (2 * P) = e * (2 * P) + 2 * P := by ring
      have h3 : 2 * P * e = e * (2 * P) := by ring
      omega
    obtain ⟨i1, i2⟩ := hidx e he
    obtain ⟨j1, j2⟩ := hidx e' he'
    have h1 := facet_coef (hf e he m hm q hq) (hψ _ i2) a
    have h2 := facet_coef (hf' e' he' m hm q hq) (hψ' _ j2) a'
    rw [if_pos (by omega), i1, ha _ (by omega)] at h1
    rw [if_pos (by omega), j1] at h2
    exact h1.trans h2.symm

/-- Arnold-Winther. -/
theorem C93_arnoldWinther (c : Facets K) (hsd : c.sd = 2) (hnum : c.num = 3)
    (hgood : ∀ f < 3, GoodFacet 2 (c.tangent f) (c.norm f))
    {W : Submodule K T} {l : Nat → T →ₗ[K] K} {start stop : T →ₗ[K] K}
    (hW : Unisolvent W (withEnds start stop l) 4)
    -- one cell
    {h : Nat → K} (hh : ∀ v < 3, h v ≠ 0)
    {on : Nat → A →ₗ[K] T} {J : Nat → Nat → K} {detJ : K} {node : Nat → SNode K A 2} {φ : Nat → Fin 2 → Fin 2 → A}
    {ev : Nat → A →ₗ[K] K} (C : StressCell 2 c on W 30 J detJ node φ) (hv : VertexNodes node on start stop ev)
    (hf : MomentsAt node on l 3 2 9) (hr : ∀ k < 30, 21 ≤ k → Invariant node 3 k)
    -- the other cell
    {h' : Nat → K} (hh' : ∀ v < 3, h' v ≠ 0)
    {on' : Nat → A' →ₗ[K] T} {J' : Nat → Nat → K} {detJ' : K} {node' : Nat → SNode K A' 2} {φ' : Nat → Fin 2 → Fin 2 → A'}
    {ev' : Nat → A' →ₗ[K] K} (C' : StressCell 2 c on' W 30 J' detJ' node' φ') (hv' : VertexNodes node' on' start stop ev')
    (hf' : MomentsAt node' on' l 3 2 9) (hr' : ∀ k < 30, 21 ≤ k → Invariant node' 3 k)
    -- the common edge
    {e e' : Nat} (he : e < 3) (he' : e' < 3)
    (ht : SameTangents 2 (images 2 J c.tangent e) (images 2 J' c.tangent e'))
    (hstart : h (ends e).1 = h' (ends e').1) (hstop : h (ends e).2 = h' (ends e').2) {a a' : Nat → K}
    (hv0 : SameAtEnds 3 e e' a a') (ha : SameOnEdge 3 4 e e' a a') :
    SameTraction (on e) (on' e') (frame 2 (images 2 J c.tangent e) 0)
      (fieldOf 24 a (tensorBasis 30 (arnoldWinther c J detJ h 30 24).get J detJ φ))
      (fieldOf 24 a' (tensorBasis 30 (arnoldWinther c J' detJ' h' 30 24).get J' detJ' φ')) :=
  vertex_tractions c hnum hgood 2 30 24 (by omega) hW hh C hv hf
    (fun k hk i hi => C63_arnoldWinther c hsd hnum J detJ C.det C.ne hgood h hh node hv.components hf.tractions hr φ
      C.symm C.nodal k (by omega) i hi) C' hv' hf'
    (fun k hk i hi => C63_arnoldWinther c hsd hnum J' detJ' C'.det C'.ne hgood h' hh' node' hv'.components hf'.tractions
      hr' φ' C'.symm C'.nodal k (by omega) i hi) he he' ht hstart hstop hv0 ha

/-- Hu-Zhang, for every degree and both variants. -/
theorem C93_huZhang (c : Facets K) (hsd : c.sd = 2) (hnum : c.num = 3)
    (hgood : ∀ f < 3, GoodFacet 2 (c.tangent f) (c.norm f)) (P G N : Nat) (hN : N = 9 + 6 * P + 3 * G) (point : Bool)
    {W : Submodule K T} {l : Nat → T →ₗ[K] K} {start stop : T →ₗ[K] K}
    (hW : Unisolvent W (withEnds start stop l) (P + 2))
    -- one cell
    {h : Nat → K} (hh : ∀ v < 3, h v ≠ 0)
    {on : Nat → A →ₗ[K] T} {J : Nat → Nat → K} {detJ : K} {node : Nat → SNode K A 2} {φ : Nat → Fin 2 → Fin 2 → A}
    {ev : Nat → A →ₗ[K] K} (C : StressCell 2 c on W N J detJ node φ) (hv : VertexNodes node on start stop ev)
    (hf : MomentsAt node on l 3 P 9)
    (hr : ∀ g < G, if point then ComponentsAt node none (9 + 6 * P + 3 * g) else
      ∀ q < 3, Invariant node 3 (9 + 6 * P + 3 * g + q))
    -- the other cell
    {h' : Nat → K} (hh' : ∀ v < 3, h' v ≠ 0)
    {on' : Nat → A' →ₗ[K] T} {J' : Nat → Nat → K} {detJ' : K} {node' : Nat → SNode K A' 2} {φ' : Nat → Fin 2 → Fin 2 → A'}
    {ev' : Nat → A' →ₗ[K] K} (C' : StressCell 2 c on' W N J' detJ' node' φ') (hv' : VertexNodes node' on' start stop ev')
    (hf' : MomentsAt node' on' l 3 P 9)
    (hr' : ∀ g < G, if point then ComponentsAt node' none (9 + 6 * P + 3 * g) else
      ∀ q < 3, Invariant node' 3 (9 + 6 * P + 3 * g + q))
    -- the common edge
    {e e' : Nat} (he : e < 3) (he' : e' < 3)
    (ht : SameTangents 2 (images 2 J c.tangent e) (images 2 J' c.tangent e'))
    (hstart : h (ends e).1 = h' (ends e').1) (hstop : h (ends e).2 = h' (ends e').2) {a a' : Nat → K}
    (hv0 : SameAtEnds 3 e e' a a') (ha : SameOnEdge 3 (2 * P) e e' a a') :
    SameTraction (on e) (on' e') (frame 2 (images 2 J c.tangent e) 0)
      (fieldOf N a (tensorBasis N (huZhang c J detJ h N P point).get J detJ φ))
      (fieldOf N a' (tensorBasis N (huZhang c J' detJ' h' N P point).get J' detJ' φ')) :=
  vertex_tractions c hnum hgood P N N (by omega) hW hh C hv hf
    (fun k hk i hi => C63_huZhang c hsd hnum J detJ C.det C.ne hgood h hh P G N hN point node hv.components hf.tractions
      hr φ C.symm C.nodal k (by omega) i hi) C' hv' hf'
    (fun k hk i hi => C63_huZhang c hsd hnum J' detJ' C'.det C'.ne hgood h' hh' P G N hN point node' hv'.components
      hf'.tractions hr' φ' C'.symm C'.nodal k (by omega) i hi) he he' ht hstart hstop hv0 ha

/-- Non-conforming Arnold-Winther: only the normal components of the tractions are the same, because the third moment
of each is one of the constraints; for the tangential components the first two moments are the same. -/
theorem C93_arnoldWintherNC (c : Facets K) (hsd : c.sd = 2) (hnum : c.num = 3)
    (hgood : ∀ f < 3, GoodFacet 2 (c.tangent f) (c.norm f))
    {W : Submodule K T} {l : Nat → T →ₗ[K] K} (hW : Unisolvent W l 3)
    -- one cell
    {on : Nat → A →ₗ[K] T} {J : Nat → Nat → K} {detJ : K} {node : Nat → SNode K A 2} {φ : Nat → Fin 2 → Fin 2 → A}
    (C : StressCell 2 c on W 18 J detJ node φ) (hf : MomentsAt node on l 3 2 0)
    (hc : ∀ f < 3, node (15 + f) = .facet f (l 2 ∘ₗ on f) 0) (hr : ∀ k < 18, 12 ≤ k → Invariant node 3 k)
    -- the other cell
    {on' : Nat → A' →ₗ[K] T} {J' : Nat → Nat → K} {detJ' : K} {node' : Nat → SNode K A' 2} {φ' : Nat → Fin 2 → Fin 2 → A'}
    (C' : StressCell 2 c on' W 18 J' detJ' node' φ') (hf' : MomentsAt node' on' l 3 2 0)
    (hc' : ∀ f < 3, node' (15 + f) = .facet f (l 2 ∘ₗ on' f) 0) (hr' : ∀ k < 18, 12 ≤ k → Invariant node' 3 k)
    -- the common edge
    {e e' : Nat} (he : e < 3) (he' : e' < 3)
    (ht : SameTangents 2 (images 2 J c.tangent e) (images 2 J' c.tangent e')) {a a' : Nat → K}
    (ha : SameOnEdge 0 4 e e' a a') :
    let n := frame 2 (images 2 J c.tangent e) 0
    let t := frame 2 (images 2 J c.tangent e) 1
    let S := fieldOf 15 a (tensorBasis 18 (arnoldWintherNC c J detJ 18 15).get J detJ φ)
    let S' := fieldOf 15 a' (tensorBasis 18 (arnoldWintherNC c J' detJ' 18 15).get J' detJ' φ')
    on e (dotWith n (traction n S)) = on' e' (dotWith n (traction n S')) ∧
    ∀ m < 2, l m (on e (dotWith t (traction n S))) = l m (on' e' (dotWith t (traction n S'))) := by
  intro n t S S'
  have hψ := fun k hk i hi => C63_arnoldWintherNC c hsd hnum J detJ C.det C.ne hgood node hf.tractions hr (fun _ => 1) φ
    C.symm C.nodal k hk i hi
  have hψ' := fun k hk i hi => C63_arnoldWintherNC c hsd hnum J' detJ' C'.det C'.ne hgood node' hf'.tractions hr'
    (fun _ => 1) φ' C'.symm C'.nodal k hk i hi
  have key : ∀ q < 2, ∀ m < 2, l m (on e (dotWith (frame 2 (images 2 J c.tangent e) q) (traction n S))) =
      l m (on' e' (dotWith (frame 2 (images 2 J' c.tangent e') q)
        (traction (frame 2 (images 2 J' c.tangent e') 0) S'))) := by
    intro q hq m hm
    have h1 := facet_coef (hf e he m hm q hq) (hψ _ (by omega)) a
    have h2 := facet_coef (hf' e' he' m hm q hq) (hψ' _ (by omega)) a'
    rw [if_pos (by omega), show 0 + (2 * 2 * e + m * 2 + q) = 3 * 0 + e * 4 + (m * 2 + q) by omega,
      ha _ (by omega)] at h1
    rw [if_pos (by omega), show 0 + (2 * 2 * e' + m * 2 + q) = 3 * 0 + e' * 4 + (m * 2 + q) by omega] at h2
    exact h1.trans h2.symm
  refine ⟨same_component (.inl rfl) hW ht (field_traces (fun k hk i j => C.traces k hk e (by omega) i j) a)
    (field_traces (fun k hk i j => C'.traces k hk e' (by omega) i j) a') 0 (by omega) fun m hm => ?_, fun m hm => ?_⟩
  · by_cases h2 : m < 2
    · exact key 0 (by omega) m h2
    · obtain rfl : m = 2 := by omega
      have h1 := facet_coef (hc e he) (hψ _ (by omega)) a
      have h2 := facet_coef (hc' e' he') (hψ' _ (by omega)) a'
      rw [if_neg (by omega)] at h1 h2
      exact h1.trans h2.symm
  · have := key 1 (by omega) m hm
    rw [← traction_congr (frame_congr (.inl rfl) ht 0 (by omega)) S',
      ← dotWith_congr (frame_congr (.inl rfl) ht 1 (by omega))] at this
    exact this

/-- Mardal-Tai-Winther: the normal components are the same and the tangential components have the same mean. The
nodes of an edge are the first functional of the normal and the tangential component and the second functional of the
normal component; the third and fourth functionals of normal components are among the constraints. -/
theorem C93_mtw (c : Facets K) (hsd : c.sd = 2)
    (hgood : ∀ f < 3, GoodFacet 2 (c.tangent f) (c.norm f)) (dofs : List (List (List Nat))) (hdims : 1 < dofs.length)
    (h3 : (dofs.getD 1 []).length = 3) (hfirst : ∀ f < 3, ((dofs.getD 1 []).getD f []).getD 0 0 = 3 * f) (N : Nat)
    (hN : 9 ≤ N) {W : Submodule K T} {l : Nat → T →ₗ[K] K} (hW : Unisolvent W l 4)
    -- one cell
    {on : Nat → A →ₗ[K] T} {J : Nat → Nat → K} {detJ : K} {D E : Fin 2 → A →ₗ[K] A} (m : CellMap J detJ D E)
    {node : Nat → Node K A 2}
    (hf : ∀ f < 3, node (3 * f) = .facet f (l 0 ∘ₗ on f) 0 ∧ node (3 * f + 1) = .facet f (l 0 ∘ₗ on f) 1 ∧
      node (3 * f + 2) = .facet f (l 1 ∘ₗ on f) 0)
    (hc : ∀ f < 3, ∀ i, 2 ≤ i → i < 4 → ∃ k < N, 9 ≤ k ∧ node k = .facet f (l i ∘ₗ on f) 0)
    (hr : ∀ k < N, 9 ≤ k → (∃ f < 3, ∃ l, node k = .facet f l 0) ∨ ∃ l, node k = .other l)
    {φ : Nat → Fin 2 → A} (hW1 : ∀ k < N, ∀ f < 3, ∀ i, on f (φ k i) ∈ W) (hφ : Nodal N (refNode c.tangent D node) φ)
    -- the other cell
    {on' : Nat → A' →ₗ[K] T} {J' : Nat → Nat → K} {detJ' : K} {D' E' : Fin 2 → A' →ₗ[K] A'} (m' : CellMap J' detJ' D' E')
    {node' : Nat → Node K A' 2}
    (hf' : ∀ f < 3, node' (3 * f) = .facet f (l 0 ∘ₗ on' f) 0 ∧ node' (3 * f + 1) = .facet f (l 0 ∘ₗ on' f) 1 ∧
      node' (3 * f + 2) = .facet f (l 1 ∘ₗ on' f) 0)
    (hc' : ∀ f < 3, ∀ i, 2 ≤ i → i < 4 → ∃ k < N, 9 ≤ k ∧ node' k = .facet f (l i ∘ₗ on' f) 0)
    (hr' : ∀ k < N, 9 ≤ k → (∃ f < 3, ∃ l, node' k = .facet f l 0) ∨ ∃ l, node' k = .other l)
    {φ' : Nat → Fin 2 → A'} (hW1' : ∀ k < N, ∀ f < 3, ∀ i, on' f (φ' k i) ∈ W)
    (hφ' : Nodal N (refNode c.tangent D' node') φ')
    -- the common edge
    {e e' : Nat} (he : e < 3) (he' : e' < 3)
    (ht : SameTangents 2 (images 2 J c.tangent e) (images 2 J' c.tangent e')) {a a' : Nat → K}
    (ha : SameOnEdge 0 3 e e' a a') :
    let n := frame 2 (images 2 J c.tangent e) 0
    let t := frame 2 (images 2 J c.tangent e) 1
    let u := fieldOf 9 a (vectorBasis N (mtw c J detJ dofs N).get J detJ φ)
    let u' := fieldOf 9 a' (vectorBasis N (mtw c J' detJ' dofs N).get J' detJ' φ')
    on e (dotWith n u) = on' e' (dotWith n u') ∧ l 0 (on e (dotWith t u)) = l 0 (on' e' (dotWith t u')) := by
  intro n t u u'
  have hdim : mtwDim 2 dofs = 9 := by unfold mtwDim; rw [h3]
  have hψ : ∀ k < N, ∀ i < 9, physNode c.tangent E J detJ node k
      (vectorBasis N (mtw c J detJ dofs N).get J detJ φ i) = if k = i then 1 else 0 := fun k hk i hi =>
    C62_mtw c hsd J detJ D E m dofs hdims N (by omega) node (by rw [h3]; exact hgood)
      (by
        rw [h3]; intro f hf0
        rw [hfirst f hf0]
        exact ⟨_, by omega, (hf f hf0).1, (hf f hf0).2.1⟩)
      (by
        rw [h3]; intro k hk hne
        by_cases h9 : k < 9
        · have := hne (k / 3) (by omega)
          rw [hfirst _ (by omega)] at this
          obtain ⟨e0, -, e2⟩ := hf (k / 3) (by omega)
          have : k = 3 * (k / 3) ∨ k = 3 * (k / 3) + 2 := by omega
          rcases this with h | h
          · exact .inl ⟨k / 3, by omega, _, by rw [h]; rw [show 3 * (k / 3) / 3 = k / 3 by omega]; exact e0⟩
          · exact .inl ⟨k / 3, by omega, _, by rw [h]; rw [show (3 * (k / 3) + 2) / 3 = k / 3 by omega]; exact e2⟩
        · exact hr k hk (by omega)) φ hφ k hk i (by omega)
  have hψ' : ∀ k < N, ∀ i < 9, physNode c.tangent E' J' detJ' node' k
      (vectorBasis N (mtw c J' detJ' dofs N).get J' detJ' φ' i) = if k = i then 1 else 0 := fun k hk i hi =>
    C62_mtw c hsd J' detJ' D' E' m' dofs hdims N (by omega) node' (by rw [h3]; exact hgood)
      (by
        rw [h3]; intro f hf0
        rw [hfirst f hf0]
        exact ⟨_, by omega, (hf' f hf0).1, (hf' f hf0).2.1⟩)
      (by
        rw [h3]; intro k hk hne
        by_cases h9 : k < 9
        · have := hne (k / 3) (by omega)
          rw [hfirst _ (by omega)] at this
          obtain ⟨e0, -, e2⟩ := hf' (k / 3) (by omega)
          have : k = 3 * (k / 3) ∨ k = 3 * (k / 3) + 2 := by omega
          rcases this with h | h
          · exact .inl ⟨k / 3, by omega, _, by rw [h]; rw [show 3 * (k / 3) / 3 = k / 3 by omega]; exact e0⟩
          · exact .inl ⟨k / 3, by omega, _, by rw [h]; rw [show (3 * (k / 3) + 2) / 3 = k / 3 by omega]; exact e2⟩
        · exact hr' k hk (by omega)) φ' hφ' k hk i (by omega)
  -- a functional of a component agrees if the coefficients do
  have key : ∀ {k k' q i : Nat}, k < N → k' < N → q < 2 → node k = .facet e (l i ∘ₗ on e) q →
      node' k' = .facet e' (l i ∘ₗ on' e') q → (if k < 9 then a k else 0) = (if k' < 9 then a' k' else 0) →
      l i (on e (dotWith (frame 2 (images 2 J c.tangent e) q) u)) =
        l i (on' e' (dotWith (frame 2 (images 2 J c.tangent e) q) u')) := by
    intro k k' q i hk hk' hq hn hn' hcoef
    rw [dotWith_congr (frame_congr (.inl rfl) ht q hq) u']
    exact (vector_coef hn (hψ k hk) a).trans (hcoef.trans (vector_coef hn' (hψ' k' hk') a').symm)
  have hmem : ∀ {B : Type} [AddCommGroup B] [Module K B] (on : B →ₗ[K] T) (G : Nat → Nat → K) (J : Nat → Nat → K) (detJ : K)
      (φ : Nat → Fin 2 → B) (a : Nat → K), (∀ k < N, ∀ i, on (φ k i) ∈ W) →
      on (dotWith n (fieldOf 9 a (vectorBasis N G J detJ φ))) ∈ W := by
    intro B _ _ on G J detJ φ a h
    rw [dotWith_map]
    unfold fieldOf vectorBasis piolaPush dotWith
    simp only [Finset.sum_apply, Pi.smul_apply, map_sum, map_smul]
    exact W.sum_mem fun x _ => W.smul_mem _ (W.sum_mem fun r _ => W.smul_mem _ (W.sum_mem fun k hk => W.smul_mem _
      (W.smul_mem _ (W.sum_mem fun y _ => W.smul_mem _ (h k (Finset.mem_range.1 hk) y)))))
  have hk0 : ∀ r < 3, (if 3 * e + r < 9 then a (3 * e + r) else 0) = (if 3 * e' + r < 9 then a' (3 * e' + r) else 0) := by
    intro r hr
    have := ha r hr
    rw [if_pos (by omega), if_pos (by omega)]
    rw [show 3 * 0 + e * 3 + r = 3 * e + r by omega, show 3 * 0 + e' * 3 + r = 3 * e' + r by omega] at this
    exact this
  obtain ⟨f0, f1, f2⟩ := hf e he
  obtain ⟨g0, g1, g2⟩ := hf' e' he'
  refine ⟨sub_eq_zero.1 (hW _ (W.sub_mem (hmem _ _ _ _ _ _ fun k hk i => hW1 k hk e he i)
    (hmem _ _ _ _ _ _ fun k hk i => hW1' k hk e' he' i)) fun i hi => ?_), ?_⟩
  · rw [map_sub, sub_eq_zero]
    match i, hi with
    | 0, _ => exact key (by omega) (by omega) (by omega) f0 g0 (hk0 0 (by omega))
    | 1, _ => exact key (by omega) (by omega) (by omega) f2 g2 (hk0 2 (by omega))
    | i + 2, hi =>
      obtain ⟨k, hk, hk9, hn⟩ := hc e he (i + 2) (by omega) hi
      obtain ⟨k', hk', hk9', hn'⟩ := hc' e' he' (i + 2) (by omega) hi
      exact key hk hk' (by omega) hn hn' (by rw [if_neg (by omega), if_neg (by omega)])
  · exact key (by omega) (by omega) (by omega) f1 g1 (hk0 1 (by omega))

/-- The hypothesis on functionals holds for moments on an edge: a polynomial of degree less than `P` with no moments
against polynomials of degrees `0, ..., P - 1` is zero, also of degree less than `P + 2` if it vanishes at the ends. -/
theorem C93_moments [Algebra K ℝ] (P : Nat) (w : Nat → Polynomial K)
    (hw : ∀ m < P, w m ≠ 0 ∧ (w m).natDegree = m) :
    Unisolvent (Polynomial.degreeLT K P) (fun m => moment (w m)) P ∧
    Unisolvent (Polynomial.degreeLT K (P + 2)) (withEnds (Polynomial.leval 0) (Polynomial.leval 1) fun m => moment (w m))
      (P + 2) := by
  constructor
  · intro p hp h
    by_contra hne
    have hd : p.natDegree < P := (Polynomial.natDegree_lt_iff_degree_lt hne).2 (Polynomial.mem_degreeLT.1 hp)
    exact hne (zero_of_moments (m := 0) (by omega) (by intro k hk; omega)
      (all_moments P hw fun m hm => h m hm))
  · intro p hp h
    by_contra hne
    have hd : p.natDegree < P + 2 := (Polynomial.natDegree_lt_iff_degree_lt hne).2 (Polynomial.mem_degreeLT.1 hp)
    refine hne (zero_of_moments (m := 1) (q := P) (by omega) (fun k hk => ?_) (all_moments P hw fun m hm => ?_))
    · obtain rfl : k = 0 := by omega
      exact ⟨h 0 (by omega), h 1 (by omega)⟩
    · exact h (m + 2) (by omega)

/-- It holds for values at points of the edge as well. -/
theorem C93_points (P : Nat) (x : Nat → K) (hx : ∀ i < P, ∀ j < P, x i = x j → i = j)
    (h01 : ∀ i < P, x i ≠ 0 ∧ x i ≠ 1) :
    Unisolvent (Polynomial.degreeLT K (P + 2)) (withEnds (Polynomial.leval 0) (Polynomial.leval 1)
      fun m => Polynomial.leval (x m)) (P + 2) := by
  intro p hp h
  let y : Fin (P + 2) → K := fun m => match m.1 with
    | 0 => 0
    | 1 => 1
    | m + 2 => x m
  have hy : Function.Injective y := by
    rintro ⟨i, hi⟩ ⟨j, hj⟩ hij
    match i, j with
    | 0, 0 => rfl
    | 0, 1 => exact absurd hij zero_ne_one
    | 1, 0 => exact absurd hij.symm zero_ne_one
    | 1, 1 => rfl
    | 0, j + 2 => exact absurd hij.symm (h01 j (by omega)).1
    | i + 2, 0 => exact absurd hij (h01 i (by omega)).1
    | 1, j + 2 => exact absurd hij.symm (h01 j (by omega)).2
    | i + 2, 1 => exact absurd hij (h01 i (by omega)).2
    | i + 2, j + 2 =>
      have := hx i (by omega) j (by omega) hij
      subst this; rfl
  by_contra hne
  refine hne (Polynomial.eq_zero_of_natDegree_lt_card_of_eval_eq_zero p hy (fun i => ?_) ?_)
  · obtain ⟨i, hi⟩ := i
    match i with
    | 0 => exact h 0 hi
    | 1 => exact h 1 hi
    | i + 2 => exact h (i + 2) hi
  · rw [Fintype.card_fin]
    exact (Polynomial.natDegree_lt_iff_degree_lt hne).2 (Polynomial.mem_degreeLT.1 hp)

/-! ### Concrete cases

Functions are given by their values at places, as in `StressCases`; the second cell is on the other side of the edge. -/

namespace TractionCases

open StressCases

/-- It maps the tangent `(3, 4)` where `J21` does, with a negative determinant. -/
def Jm : Nat → Nat → ℚ := fun i j => if i = 0 then (if j = 0 then -2 else 4) else if j = 0 then 0 else 1

theorem det_Jm : (-2 : ℚ) = det 2 Jm := by
  rw [det, Matrix.det_fin_two]; norm_num [Jm]

theorem same34 (e e' : Nat) : SameTangents 2 (images 2 StressCases.J21 edges34.tangent e) (images 2 Jm edges34.tangent e') := by
  intro k _ i hi
  match i, hi with
  | 0, _ => norm_num [images, imageOf, Finset.sum_range_succ, StressCases.J21, Jm, edges34]
  | 1, _ => norm_num [images, imageOf, Finset.sum_range_succ, StressCases.J21, Jm, edges34]

/-- Values at the places of a facet. -/
def val (n : Nat) [NeZero n] (m : Nat) : (Fin n → ℚ) →ₗ[ℚ] ℚ := LinearMap.proj (Fin.ofNat n m)

theorem val_unisolvent (n : Nat) [NeZero n] : Unisolvent (K := ℚ) (⊤ : Submodule ℚ (Fin n → ℚ)) (val n) n := by
  intro p _ h
  funext i
  have := h i i.2
  have e : Fin.ofNat n i.1 = i := Fin.ext (Nat.mod_eq_of_lt i.2)
  rw [val, LinearMap.proj_apply, e] at this
  exact this

/-- Choose places. -/
def pick (n : Nat) {N : Nat} (s : Fin n → Fin N) : (Fin N → ℚ) →ₗ[ℚ] (Fin n → ℚ) where
  toFun f := fun i => f (s i)
  map_add' _ _ := rfl
  map_smul' _ _ := rfl

/-- The two places on an edge. -/
def on2 (f : Nat) : Tab →ₗ[ℚ] (Fin 2 → ℚ) := pick 2 fun i => Fin.ofNat 10 (2 * f + i)

theorem nc_moments : MomentsAt ncNode on2 (val 2) 3 2 0 := by
  intro f hf m hm q hq
  unfold ncNode
  rw [if_pos (by omega), show (0 + (2 * 2 * f + m * 2 + q)) / 4 = f by omega,
    show (0 + (2 * 2 * f + m * 2 + q)) / 2 = 2 * f + m by omega, show (0 + (2 * 2 * f + m * 2 + q)) % 2 = q by omega]
  congr 1
  interval_cases m <;> rfl

theorem ncCell : StressCell 2 edges34 on2 ⊤ 18 StressCases.J21 2 ncNode ncBasis :=
  ⟨StressCases.det_J21, by norm_num, fun k _ => nc_symm k, fun _ _ _ _ _ _ => trivial, nc_nodal⟩

theorem ncCell' : StressCell 2 edges34 on2 ⊤ 18 Jm (-2) ncNode ncBasis :=
  ⟨det_Jm, by norm_num, fun k _ => nc_symm k, fun _ _ _ _ _ _ => trivial, nc_nodal⟩

example := C93_johnsonMercier (.inl rfl) edges34 rfl (fun f _ => edges34_good f) 2 18 15 (by decide) (by decide)
  (val_unisolvent 2) ncCell nc_moments (fun k _ h => nc_rest k h) ncCell' nc_moments (fun k _ h => nc_rest k h)
  (e := 0) (e' := 1) (by decide) (by decide) (same34 0 1) (a := fun k => k) (a' := fun k => k - 4)
  (fun k _ => by push_cast; ring)

/-- Ends and places of an edge. -/
def on4 (f : Nat) : Tab →ₗ[ℚ] (Fin 4 → ℚ) :=
  pick 4 ![Fin.ofNat 10 (6 + (ends f).1), Fin.ofNat 10 (6 + (ends f).2), Fin.ofNat 10 (2 * f), Fin.ofNat 10 (2 * f + 1)]

theorem ends_unisolvent : Unisolvent (K := ℚ) (⊤ : Submodule ℚ (Fin 4 → ℚ))
    (withEnds (val 4 0) (val 4 1) fun m => val 4 (m + 2)) 4 := by
  intro p hp h
  refine val_unisolvent 4 p hp fun m hm => ?_
  match m, hm with
  | 0, _ => exact h 0 (by omega)
  | 1, _ => exact h 1 (by omega)
  | m + 2, _ => exact h (m + 2) (by omega)

theorem aw_moments : MomentsAt awNode on4 (fun m => val 4 (m + 2)) 3 2 9 := by
  intro f hf m hm q hq
  unfold awNode
  rw [if_neg (by omega), if_pos (by omega)]
  unfold ncNode
  rw [if_pos (by omega), show (9 + (2 * 2 * f + m * 2 + q) - 9) / 4 = f by omega,
    show (9 + (2 * 2 * f + m * 2 + q) - 9) / 2 = 2 * f + m by omega,
    show (9 + (2 * 2 * f + m * 2 + q) - 9) % 2 = q by omega]
  congr 1
  interval_cases m <;> rfl

theorem aw_vertexNodes : VertexNodes awNode on4 (val 4 0) (val 4 1) fun v => at' (Fin.ofNat 10 (6 + v)) := by
  refine ⟨fun v hv => ?_, fun e he f => ⟨rfl, rfl⟩⟩
  interval_cases v <;> exact ⟨rfl, rfl, rfl⟩

theorem awCell : StressCell 2 edges34 on4 ⊤ 30 StressCases.J21 2 awNode awBasis :=
  ⟨StressCases.det_J21, by norm_num, fun k _ => aw_symm k, fun _ _ _ _ _ _ => trivial, aw_nodal⟩

theorem awCell' : StressCell 2 edges34 on4 ⊤ 30 Jm (-2) awNode awBasis :=
  ⟨det_Jm, by norm_num, fun k _ => aw_symm k, fun _ _ _ _ _ _ => trivial, aw_nodal⟩

/-- The cell sizes at the vertices of the two cells, and coefficients. -/
def sizes' (v : Nat) : ℚ := if v = 0 then 3 else if v = 2 then 4 else 7
def coefs' (k : Nat) : ℚ := if k < 3 then k + 3 else if k < 9 then k else k - 4

example := C93_arnoldWinther edges34 rfl rfl (fun f _ => edges34_good f) ends_unisolvent
  (h := fun v => v + 2) (by intro v _; positivity) awCell aw_vertexNodes aw_moments (fun k _ h => aw_rest k h)
  (h' := sizes') (by decide +kernel) awCell' aw_vertexNodes aw_moments (fun k _ h => aw_rest k h)
  (e := 0) (e' := 1) (by decide) (by decide) (same34 0 1) (by decide +kernel) (by decide +kernel)
  (a := fun k => k) (a' := coefs') (by unfold SameAtEnds; decide +kernel) (by unfold SameOnEdge; decide +kernel)

example := C93_huZhang edges34 rfl rfl (fun f _ => edges34_good f) 2 3 30 rfl false ends_unisolvent
  (h := fun v => v + 2) (by intro v _; positivity) awCell aw_vertexNodes aw_moments (fun g _ q _ => aw_rest _ (by omega))
  (h' := sizes') (by decide +kernel) awCell' aw_vertexNodes aw_moments (fun g _ q _ => aw_rest _ (by omega))
  (e := 0) (e' := 1) (by decide) (by decide) (same34 0 1) (by decide +kernel) (by decide +kernel)
  (a := fun k => k) (a' := coefs') (by unfold SameAtEnds; decide +kernel) (by unfold SameOnEdge; decide +kernel)

/-- Three places on each edge, with the normal component at the third one as a constraint. -/
def on3 (f : Nat) : Tab →ₗ[ℚ] (Fin 3 → ℚ) :=
  pick 3 ![Fin.ofNat 10 (2 * f), Fin.ofNat 10 (2 * f + 1), Fin.ofNat 10 (6 + f)]

def cnNode (k : Nat) : SNode ℚ Tab 2 :=
  if k < 15 then ncNode k else .facet (k - 15) (at' (Fin.ofNat 10 (6 + (k - 15)))) 0

def cnBasis (k : Nat) : Fin 2 → Fin 2 → Tab :=
  if k < 15 then ncBasis k else framed (Fin.ofNat 10 (6 + (k - 15))) 0

theorem cn_nodal : Nodal 18 (refStress edges34.tangent cnNode) cnBasis := by
  unfold Nodal
  decide +kernel

theorem cn_symm (k : Nat) (i j : Fin 2) : cnBasis k i j = cnBasis k j i := by
  unfold cnBasis
  split
  · exact nc_symm _ _ _
  · exact framed_symm _ _ _ _

theorem cn_moments : MomentsAt cnNode on3 (val 3) 3 2 0 := by
  intro f hf m hm q hq
  unfold cnNode
  rw [if_pos (by omega)]
  unfold ncNode
  rw [if_pos (by omega), show (0 + (2 * 2 * f + m * 2 + q)) / 4 = f by omega,
    show (0 + (2 * 2 * f + m * 2 + q)) / 2 = 2 * f + m by omega, show (0 + (2 * 2 * f + m * 2 + q)) % 2 = q by omega]
  congr 1
  interval_cases m <;> rfl

theorem cn_constraint (f : Nat) : cnNode (15 + f) = .facet f (val 3 2 ∘ₗ on3 f) 0 := by
  unfold cnNode
  rw [if_neg (by omega), Nat.add_sub_cancel_left]
  rfl

theorem cn_rest (k : Nat) (hk : k < 18) (h : 12 ≤ k) : Invariant cnNode 3 k := by
  by_cases h15 : k < 15
  · rcases nc_rest k h with h | h
    · exact .inl (by unfold cnNode; rw [if_pos h15]; exact h)
    · exact .inr (by unfold cnNode; rw [if_pos h15]; exact h)
  · exact .inl ⟨k - 15, by omega, _, by unfold cnNode; rw [if_neg h15]⟩

example := C93_arnoldWintherNC edges34 rfl rfl (fun f _ => edges34_good f) (val_unisolvent 3)
  (J := StressCases.J21) (detJ := 2) ⟨StressCases.det_J21, by norm_num, fun k _ => cn_symm k, fun _ _ _ _ _ _ => trivial, cn_nodal⟩
  cn_moments (fun f _ => cn_constraint f) cn_rest
  (J' := Jm) (detJ' := -2) ⟨det_Jm, by norm_num, fun k _ => cn_symm k, fun _ _ _ _ _ _ => trivial, cn_nodal⟩
  cn_moments (fun f _ => cn_constraint f) cn_rest
  (e := 0) (e' := 1) (by decide) (by decide) (same34 0 1) (a := fun k => k) (a' := fun k => k - 4)
  (fun k _ => by push_cast; ring)

/-- Four places on each edge. -/
def mtwOn (f : Nat) : (Fin 12 → ℚ) →ₗ[ℚ] (Fin 4 → ℚ) := pick 4 fun i => Fin.ofNat 12 (4 * f + i)

def mtwNodes (k : Nat) : Node ℚ (Fin 12 → ℚ) 2 :=
  if k < 9 then .facet (k / 3) (val 4 (k % 3 / 2) ∘ₗ mtwOn (k / 3)) (k % 3 % 2)
  else .facet ((k - 9) / 2) (val 4 (2 + (k - 9) % 2) ∘ₗ mtwOn ((k - 9) / 2)) 0

/-- `n` or `t` over 25 at a place. -/
def arrow (m q : Nat) : Fin 2 → Fin 12 → ℚ :=
  fun i p => if p.1 = m then (if q = 0 then ![4 / 25, -3 / 25] i else ![3 / 25, 4 / 25] i) else 0

def mtwFields (k : Nat) : Fin 2 → Fin 12 → ℚ :=
  if k < 9 then arrow (4 * (k / 3) + k % 3 / 2) (k % 3 % 2) else arrow (4 * ((k - 9) / 2) + (2 + (k - 9) % 2)) 0

theorem mtwFields_nodal : Nodal 15 (refNode edges34.tangent (fun _ => 0) mtwNodes) mtwFields := by
  unfold Nodal
  decide +kernel

theorem mtw_edge (f : Nat) (hf : f < 3) : mtwNodes (3 * f) = .facet f (val 4 0 ∘ₗ mtwOn f) 0 ∧
    mtwNodes (3 * f + 1) = .facet f (val 4 0 ∘ₗ mtwOn f) 1 ∧ mtwNodes (3 * f + 2) = .facet f (val 4 1 ∘ₗ mtwOn f) 0 := by
  unfold mtwNodes
  interval_cases f <;> exact ⟨rfl, rfl, rfl⟩

theorem mtw_constraints (f : Nat) (hf : f < 3) (i : Nat) (h2 : 2 ≤ i) (h4 : i < 4) :
    ∃ k < 15, 9 ≤ k ∧ mtwNodes k = .facet f (val 4 i ∘ₗ mtwOn f) 0 := by
  refine ⟨9 + 2 * f + (i - 2), by omega, by omega, ?_⟩
  unfold mtwNodes
  rw [if_neg (by omega), show (9 + 2 * f + (i - 2) - 9) / 2 = f by omega,
    show 2 + (9 + 2 * f + (i - 2) - 9) % 2 = i by omega]

theorem mtw_others (k : Nat) (hk : k < 15) (h9 : 9 ≤ k) :
    (∃ f < 3, ∃ l, mtwNodes k = .facet f l 0) ∨ ∃ l, mtwNodes k = .other l :=
  .inl ⟨(k - 9) / 2, by omega, _, by unfold mtwNodes; rw [if_neg (by omega)]⟩

example := C93_mtw edges34 rfl (fun f _ => edges34_good f) [[[], [], []], [[0, 1, 2], [3, 4, 5], [6, 7, 8]], [[]]]
  (by decide) rfl (by decide) 15 (by decide) (val_unisolvent 4)
  (J := StressCases.J21) (detJ := 2) (D := fun _ => 0) (E := fun _ => 0) ⟨StressCases.det_J21, by norm_num, by simp⟩
  mtw_edge mtw_constraints mtw_others (fun _ _ _ _ _ => trivial) mtwFields_nodal
  (J' := Jm) (detJ' := -2) (D' := fun _ => 0) (E' := fun _ => 0) ⟨det_Jm, by norm_num, by simp⟩
  mtw_edge mtw_constraints mtw_others (fun _ _ _ _ _ => trivial) mtwFields_nodal
  (e := 0) (e' := 1) (by decide) (by decide) (same34 0 1) (a := fun k => k) (a' := fun k => k - 3)
  (fun k _ => by push_cast; ring)

/-- Three moments on an edge against powers, and values at the third parts. -/
example := C93_moments (K := ℚ) 3 (fun m => Polynomial.X ^ m) fun m _ =>
  ⟨pow_ne_zero m Polynomial.X_ne_zero, Polynomial.natDegree_X_pow m⟩
example := C93_points (K := ℚ) 2 (fun m => (m + 1) / 3) (by decide +kernel) (by decide +kernel)

end TractionCases

end FInAT.Props
