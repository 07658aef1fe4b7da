import Verif.Lemmas.PiolaVector2
import Verif.Props.Layout
import Mathlib.Tactic.FinCases
import Mathlib.Data.Fin.VecNotation
import Mathlib.LinearAlgebra.Pi

/-!
# C62: nodality of the Piola-mapped vector elements

`alfeldSorokina`, `bubble`, `mtw` model the code; nodes, frames and Piola maps are those of
`Verif.Spec.PiolaNodes`. `node k` is the `k`-th node of the FIAT element. On the reference cell it is measured with the
reference tangents and derivatives, on the physical cell with the images of the tangents and the physical derivatives.
-/

namespace FInAT.Props

open Finset FInAT.Piola FInAT.Zany FInAT.Stress FInAT.Spec.PiolaNodes FInAT.Spec.Zany FInAT.PiolaNodes

variable {K A : Type} [Field K] [AddCommGroup A] [Module K A] {d : Nat}

/-- The map of the cell: `detJ` is the determinant of `J` and not zero, and the derivatives `D` on the reference cell
are those on the physical cell, `D'`, by the chain rule. -/
structure CellMap (J : Nat → Nat → K) (detJ : K) (D D' : Fin d → A →ₗ[K] A) : Prop where
  det : detJ = det d J
  ne : detJ ≠ 0
  chain : ∀ i a, D i a = ∑ k : Fin d, J k i • D' k a

/-- Node `k` of the element on the reference cell. -/
def refNode (t : Nat → Nat → Nat → K) (D : Fin d → A →ₗ[K] A) (node : Nat → Node K A d) (k : Nat) : (Fin d → A) → K :=
  (node k).value t D id

/-- Node `k` of the element on the physical cell. -/
noncomputable def physNode (t : Nat → Nat → Nat → K) (D' : Fin d → A →ₗ[K] A) (J : Nat → Nat → K) (detJ : K)
    (node : Nat → Node K A d) (k : Nat) : (Fin d → A) → K :=
  (node k).value (images d J t) D' (piolaPull J detJ)

/-- Alfeld-Sorokina: the degrees of freedom of every entity are vectors (all components measured in the same way) and
divergences; then the transformed functions are nodal on the physical cell. -/
theorem C62_alfeldSorokina (hd : 0 < d) (J : Nat → Nat → K) (detJ : K) (D D' : Fin d → A →ₗ[K] A)
    (m : CellMap J detJ D D') (t : Nat → Nat → Nat → K) (dofs : List (List (List Nat))) (N : Nat)
    (hpart : Partitions dofs N) (node : Nat → Node K A d) (deriv : Nat → Bool)
    (hder : ∀ k < N, deriv k = true ↔ ∃ l, node k = .divergence l)
    (hgroups : ∀ l ∈ dofs.flatten, ∃ gs : List (Group K A), l.map node = gs.flatMap (Group.nodes d))
    (φ : Nat → Fin d → A) (hφ : Nodal N (refNode t D node) φ) :
    Nodal N (physNode t D' J detJ node)
      (vectorBasis N (alfeldSorokina d J detJ deriv dofs N).get J detJ φ) := by
  intro k hk i hi
  have hlt : ∀ a ∈ dofs.flatten.flatten, a < N := fun a ha => List.mem_range.1 (hpart.subset ha)
  have hfold : ∀ (ds : List (List (List Nat))) (V : Arr K), ds.foldl (fun V ents => ents.foldl
      (fun V s => undoPiola d (piolaInverse d J detJ) detJ deriv s.length s V) V) V = ds.flatten.foldl
      (fun V s => undoPiola d (piolaInverse d J detJ) detJ deriv s.length s V) V := by
    intro ds
    induction ds with
    | nil => intro V; rfl
    | cons e ds ih => intro V; rw [List.foldl_cons, ih, List.flatten_cons, List.foldl_append]
  obtain ⟨_, u2⟩ := undo_all hd N node deriv t D D' J detJ m.det m.ne m.chain dofs.flatten hgroups
    (fun a ha => hder a (hlt a ha)) (hpart.nodup_iff.2 List.nodup_range) hlt (identity N N)
  refine vector_nodal N N le_rfl node t D D' J detJ m.det m.ne
    (fun a b => (alfeldSorokina d J detJ deriv dofs N).get b a) (fun a ha => ⟨_, fun b _ => rfl, ?_⟩) φ hφ k hk i hi
  have := u2 a (hpart.symm.subset (List.mem_range.2 ha)) rfl
  rw [← hfold] at this
  exact this

section Ordered

variable [LinearOrder K] [IsStrictOrderedRing K]

/-- Piola-mapped elements with normal facet bubbles (Bernardi-Raugel and similar), in two and three dimensions. The FIAT
element has on each facet the normal and the tangential components of the same moment, the latter numbered last, and
vectors and divergences elsewhere. The transformed functions are nodal on the physical cell, and their tangential
moments on the facets vanish: `k` ranges over all nodes of the FIAT element, `i` over the functions that are kept. -/
theorem C62_bubble (hd : d = 2 ∨ d = 3) (c : Facets K) (hsd : c.sd = d) (J : Nat → Nat → K) (detJ : K)
    (D D' : Fin d → A →ₗ[K] A) (m : CellMap J detJ D D') (bfs : List (List (List Nat))) (N : Nat)
    (hlay : BubbleLayout d N bfs) (node : Nat → Node K A d) (deriv : Nat → Bool)
    (hder : ∀ k < N, deriv k = true ↔ ∃ l, node k = .divergence l)
    (hgood : ∀ f < (bfs.getD (d - 1) []).length, GoodFacet d (c.tangent f) (c.norm f))
    (hfacet : ∀ f < (bfs.getD (d - 1) []).length, ∃ l : A →ₗ[K] K,
      ((bfs.getD (d - 1) []).getD f []).map node = (List.range d).map (Node.facet f l))
    (hgroups : ∀ q, q ≠ d - 1 → ∀ l ∈ bfs.getD q [], ∃ gs : List (Group K A), l.map node = gs.flatMap (Group.nodes d))
    (φ : Nat → Fin d → A) (hφ : Nodal N (refNode c.tangent D node) φ) (k : Nat) (hk : k < N) (i : Nat)
    (hi : i < bubbleDim d bfs N) :
    physNode c.tangent D' J detJ node k (vectorBasis N (bubble c J detJ deriv bfs N).get J detJ φ i) =
      if k = i then 1 else 0 := by
  have hd0 : 0 < d := by omega
  have hd1 : d - 1 + 1 = d := by omega
  obtain ⟨hk1, hp, hn, hl⟩ := hlay
  set F := bfs.getD (d - 1) [] with hF
  set cur := (F.getD 0 []).getD 0 0 with hcur
  set O := ((bfs.take (d - 1)) ++ (bfs.drop (d - 1 + 1))).flatten with hO
  have hM : bubbleDim d bfs N = N - ((F.map (List.drop 1)).flatten).length := by
    unfold bubbleDim
    simp only [foldl_drop, Nat.zero_add]
    rfl
  have hself := self_flatten bfs (d - 1) hk1
  rw [← hF, ← hO] at hself
  have hnd : (F.flatten ++ O.flatten).Nodup := hself.nodup_iff.1 (hp.nodup_iff.2 List.nodup_range)
  rw [List.nodup_append] at hnd
  have hltF : ∀ a ∈ F.flatten, a < N := fun a ha =>
    List.mem_range.1 (hp.subset (hself.symm.subset (List.mem_append_left _ ha)))
  have hltO : ∀ a ∈ O.flatten, a < N := fun a ha =>
    List.mem_range.1 (hp.subset (hself.symm.subset (List.mem_append_right _ ha)))
  have hOmem : ∀ l ∈ O, ∃ gs : List (Group K A), l.map node = gs.flatMap (Group.nodes d) := by
    intro l hl'
    obtain ⟨E, hE, hlE⟩ := List.mem_flatten.1 hl'
    rcases List.mem_append.1 hE with h | h
    · obtain ⟨q, hq, rfl⟩ := List.mem_iff_getElem.1 h
      rw [List.length_take] at hq
      rw [List.getElem_take] at hlE
      refine hgroups q (by omega) l ?_
      rw [List.getD_eq_getElem?_getD, List.getElem?_eq_getElem (by omega)]
      exact hlE
    · obtain ⟨q, hq, rfl⟩ := List.mem_iff_getElem.1 h
      rw [List.length_drop] at hq
      rw [List.getElem_drop] at hlE
      refine hgroups (d - 1 + 1 + q) (by omega) l ?_
      rw [List.getD_eq_getElem?_getD, List.getElem?_eq_getElem (by omega)]
      exact hlE
  -- the facets
  have hFnode : ∀ f < F.length, ∃ (l : A →ₗ[K] K) (tl : List Nat), F.getD f [] = (cur + f) :: tl ∧ tl.length = d - 1 ∧
      node (cur + f) = .facet f l 0 ∧ ∀ r < d - 1, node (tl.getD r 0) = .facet f l (r + 1) := by
    intro f hf
    obtain ⟨l, hfl⟩ := hfacet f hf
    obtain ⟨tl, htl⟩ := hn f hf
    rw [htl] at hfl
    have hlen : tl.length = d - 1 := by
      have := congrArg List.length hfl
      simp only [List.length_map, List.length_cons, List.length_range] at this
      omega
    refine ⟨l, tl, htl, hlen, ?_, fun r hr => ?_⟩
    · have := getD_map_node _ node _ hfl 0 (by simp)
      rw [List.getElem?_map, List.getElem?_range hd0] at this
      simpa using this.symm
    · have := getD_map_node _ node _ hfl (r + 1) (by simp; omega)
      rw [List.getElem?_map, List.getElem?_range (by omega)] at this
      simpa using this.symm
  have hFin : ∀ f < F.length, F.getD f [] ∈ F := fun f hf => by
    rw [List.getD_eq_getElem?_getD, List.getElem?_eq_getElem hf]; exact List.getElem_mem hf
  have hFnd : ∀ f < F.length, (F.getD f []).Nodup := fun f hf => (List.nodup_flatten.1 hnd.1).1 _ (hFin f hf)
  have hFdisj : ∀ f g, f < g → g < F.length → ∀ a ∈ F.getD f [], a ∉ F.getD g [] := by
    intro f g hfg hg a ha hb
    have hpw := (List.pairwise_iff_getElem.1 (List.nodup_flatten.1 hnd.1).2) f g (by omega) hg hfg
    rw [List.getD_eq_getElem?_getD, List.getElem?_eq_getElem (by omega)] at ha
    rw [List.getD_eq_getElem?_getD, List.getElem?_eq_getElem hg] at hb
    exact hpw ha hb
  -- the dofs of the reduced element
  have hdofs : bubbleDofs d bfs = bfs.set (d - 1) ((List.range F.length).map fun e => [cur + e]) := rfl
  have hdF : (bubbleDofs d bfs).getD (d - 1) [] = (List.range F.length).map fun e => [cur + e] := by
    rw [hdofs, List.getD_eq_getElem?_getD, List.getElem?_set_self hk1]; rfl
  have hdO : ((bubbleDofs d bfs).take (d - 1) ++ (bubbleDofs d bfs).drop (d - 1 + 1)).flatten = O := by
    rw [hdofs, List.take_set_of_le (le_refl _), List.drop_set_of_lt (by omega)]
  -- the matrix
  obtain ⟨u1, u2⟩ := undo_all hd0 N node deriv c.tangent D D' J detJ m.det m.ne m.chain O hOmem
    (fun a ha => hder a (hltO a ha)) hnd.2.1 hltO (identity N (bubbleDim d bfs N))
  set V1 := O.foldl (fun V s => undoPiola d (piolaInverse d J detJ) detJ deriv s.length s V)
    (identity N (bubbleDim d bfs N)) with hV1
  have hget : (fun a b => (bubble c J detJ deriv bfs N).get b a) = ((List.range F.length).foldl (fun V f =>
      setIx V ((F.getD f []).drop 1) [cur + f] (facetRows c J detJ f)) V1).get := by
    unfold bubble
    subst hsd
    simp only [Arr.T]
    rw [skip_fold (c.sd - 1) (fun V s => undoPiola c.sd (piolaInverse c.sd J detJ) detJ deriv s.length s V)]
    have := others_zipIdx (c.sd - 1) (bubbleDofs c.sd bfs) 0
    rw [Nat.zero_add, hdO] at this
    rw [this, ← hV1, hdF, List.length_map, List.length_range]
    refine congrArg Arr.get (foldl_congr_range _ _ _ _ fun V f hf => ?_)
    congr 1
    rw [List.getD_eq_getElem?_getD, List.getElem?_map, List.getElem?_range hf]
    rfl
  have hstep : ∀ (V : Arr K), ∀ f ∈ List.range F.length, ∀ a, a ∈ (F.getD f []).drop 1 →
      (setIx V ((F.getD f []).drop 1) [cur + f] (facetRows c J detJ f)).get a =
      writes (blockWrites [cur + f] (facetRows c J detJ f (((F.getD f []).drop 1).idxOf a))) (V.get a) := by
    intro V f hf a ha
    have hnd' := (hFnd f (List.mem_range.1 hf)).sublist (List.drop_sublist 1 _)
    have := (setIx_get V ((F.getD f []).drop 1) [cur + f] (facetRows c J detJ f) hnd').1
      (((F.getD f []).drop 1).idxOf a) (List.idxOf_lt_length_iff.2 ha)
    have hia : ((F.getD f []).drop 1).getD (((F.getD f []).drop 1).idxOf a) 0 = a := getD_idxOf _ a ha
    rwa [hia] at this
  have key := foldl_rows (fun V f => setIx V ((F.getD f []).drop 1) [cur + f] (facetRows c J detJ f))
    (fun f a => a ∈ (F.getD f []).drop 1)
    (fun f a r => writes (blockWrites [cur + f] (facetRows c J detJ f (((F.getD f []).drop 1).idxOf a))) r)
    (List.range F.length) hstep
    (fun V f hf a ha => (setIx_get V ((F.getD f []).drop 1) [cur + f] (facetRows c J detJ f)
      ((hFnd f (List.mem_range.1 hf)).sublist (List.drop_sublist 1 _))).2 a ha)
    (by
      refine List.pairwise_iff_getElem.2 fun x y hx hy hxy a ha hb => ?_
      rw [List.length_range] at hx hy
      rw [List.getElem_range] at ha hb
      exact hFdisj x y hxy hy a (List.mem_of_mem_drop ha) (List.mem_of_mem_drop hb)) V1
  have hMN : bubbleDim d bfs N ≤ N := by rw [hM]; omega
  refine vector_nodal N (bubbleDim d bfs N) hMN node c.tangent D D' J detJ m.det m.ne
    (fun a b => (bubble c J detJ deriv bfs N).get b a) (fun a ha => ?_) φ hφ k hk i hi
  have hget' : ∀ b, (bubble c J detJ deriv bfs N).get b a = _ := fun b => congrFun (congrFun hget a) b
  simp only [hget']
  have hmem : a ∈ F.flatten ++ O.flatten := hself.subset (hp.symm.subset (List.mem_range.2 ha))
  have hdelta : ∀ a, (identity N (bubbleDim d bfs N) : Arr K).get a = fun b => if a = b then 1 else 0 := fun _ => rfl
  rcases List.mem_append.1 hmem with h | h
  · obtain ⟨l0, hl0, hal⟩ := List.mem_flatten.1 h
    obtain ⟨f, hf, rfl⟩ := List.mem_iff_getElem.1 hl0
    have hgf : F[f] = F.getD f [] := by rw [List.getD_eq_getElem?_getD, List.getElem?_eq_getElem hf]; rfl
    rw [hgf] at hal
    obtain ⟨l, tl, htl, hlen, hnode0, hnode⟩ := hFnode f hf
    have hV1a : V1.get a = fun b => if a = b then 1 else 0 := by
      rw [u1 a fun h' => hnd.2.2 a h a h' rfl, hdelta]
    rw [htl, List.mem_cons] at hal
    rcases hal with rfl | hal
    · -- the normal component
      refine ⟨_, fun b _ => rfl, ?_⟩
      rw [key.2 (cur + f) fun g hg hag => ?_, hV1a]
      · exact rowOK_normal N node c hd hsd D D' J detJ m.det m.ne _ ha f (hgood f hf) l hnode0
      · have hg' := List.mem_range.1 hg
        rcases Nat.lt_trichotomy f g with hlt | rfl | hlt
        · exact hFdisj f g hlt hg' (cur + f) (by rw [htl]; simp) (List.mem_of_mem_drop hag)
        · have := hFnd f hf
          rw [htl, List.nodup_cons] at this
          rw [htl] at hag
          exact this.1 hag
        · exact hFdisj g f hlt hf (cur + f) (List.mem_of_mem_drop hag) (by rw [htl]; simp)
    · -- a tangential component
      have htd : (F.getD f []).drop 1 = tl := by rw [htl]; rfl
      have hrow := key.1 f (List.mem_range.2 hf) a (by rw [htd]; exact hal)
      rw [htd, hV1a] at hrow
      have hix : tl.idxOf a < tl.length := List.idxOf_lt_length_iff.2 hal
      have hia : tl.getD (tl.idxOf a) 0 = a := getD_idxOf _ a hal
      have htlM : ∀ x ∈ tl, bubbleDim d bfs N ≤ x := fun x hx => by
        rw [hM]; exact hl _ (hFin f hf) x (by rw [htd]; exact hx)
      refine ⟨writes (blockWrites ((cur + f) :: tl) (facetRows c J detJ f (tl.idxOf a)))
        fun b => if a = b then 1 else 0, fun b hb => ?_, ?_⟩
      · rw [hrow]
        have e1 : blockWrites ((cur + f) :: tl) (facetRows c J detJ f (tl.idxOf a)) =
            (cur + f, facetRows c J detJ f (tl.idxOf a) 0) ::
              (tl.zipIdx 1).map fun p => (p.1, facetRows c J detJ f (tl.idxOf a) p.2) := by
          simp [blockWrites, List.zipIdx_cons]
        have e2 : ∀ (p : Nat × K) (L : List (Nat × K)) (r : Nat → K), writes (p :: L) r =
            writes L (Function.update r p.1 p.2) := fun _ _ _ => rfl
        rw [e1, e2, writes_other]
        · rfl
        · intro p hp
          obtain ⟨q, hq, rfl⟩ := List.mem_map.1 hp
          have := htlM q.1 (List.fst_mem_of_mem_zipIdx hq)
          simp only []
          omega
      · intro u
        have hnd' := hFnd f hf
        rw [htl] at hnd'
        rw [act_blockWrites N _ ((cur + f) :: tl) hnd' (fun x hx => hltF x (List.mem_flatten.2
          ⟨_, hFin f hf, by rw [htl]; exact hx⟩)) a (List.mem_cons_of_mem _ hal)]
        have hna : node a = .facet f l (tl.idxOf a + 1) := by
          have := hnode (tl.idxOf a) (by omega)
          rwa [hia] at this
        rw [hna]
        simp only [Node.value]
        rw [(facet_row c hd hsd J detJ m.det m.ne f (hgood f hf) l u).1 (tl.idxOf a) (by omega)]
        rw [List.length_cons, hlen, hd1]
        refine Finset.sum_congr rfl fun j hj => ?_
        have hj' := Finset.mem_range.1 hj
        congr 1
        cases j with
        | zero => rw [List.getD_cons_zero, hnode0]
        | succ j => rw [List.getD_cons_succ, hnode j (by omega)]
  · refine ⟨_, fun b _ => rfl, ?_⟩
    rw [key.2 a fun g hg hag => ?_]
    · exact u2 a h (hdelta a)
    · exact hnd.2.2 a (List.mem_flatten.2 ⟨_, hFin g (List.mem_range.1 hg), List.mem_of_mem_drop hag⟩) a h rfl

/-- Mardal-Tai-Winther in the plane: on facet `f` the FIAT element has, at `cur` and `cur + 1`, the normal and the
tangential component of the same moment; the other nodes are normal components or anything measured on the reference
cell (the constraints). The transformed functions are nodal on the physical cell and satisfy the constraints. -/
theorem C62_mtw (c : Facets K) (hsd : c.sd = 2) (J : Nat → Nat → K) (detJ : K) (D D' : Fin 2 → A →ₗ[K] A)
    (m : CellMap J detJ D D') (dofs : List (List (List Nat))) (hdims : 1 < dofs.length) (N : Nat)
    (hM : mtwDim 2 dofs ≤ N) (node : Nat → Node K A 2)
    (hgood : ∀ f < (dofs.getD 1 []).length, GoodFacet 2 (c.tangent f) (c.norm f))
    (hfacet : ∀ f < (dofs.getD 1 []).length, ∃ l : A →ₗ[K] K, ((dofs.getD 1 []).getD f []).getD 0 0 + 1 < N ∧
      node (((dofs.getD 1 []).getD f []).getD 0 0) = .facet f l 0 ∧
      node (((dofs.getD 1 []).getD f []).getD 0 0 + 1) = .facet f l 1)
    (hrest : ∀ k < N, (∀ f < (dofs.getD 1 []).length, k ≠ ((dofs.getD 1 []).getD f []).getD 0 0 + 1) →
      (∃ f < (dofs.getD 1 []).length, ∃ l, node k = .facet f l 0) ∨ ∃ l, node k = .other l)
    (φ : Nat → Fin 2 → A) (hφ : Nodal N (refNode c.tangent D node) φ) (k : Nat) (hk : k < N) (i : Nat)
    (hi : i < mtwDim 2 dofs) :
    physNode c.tangent D' J detJ node k (vectorBasis N (mtw c J detJ dofs N).get J detJ φ i) =
      if k = i then 1 else 0 := by
  set F := dofs.getD 1 [] with hF
  have hd2 : (2 : Nat) = 2 ∨ (2 : Nat) = 3 := .inl rfl
  have hFm : (mtwDofs 2 dofs).getD 1 [] = F.map fun l => l.take 3 := by
    unfold mtwDofs
    simp only []
    rw [show 2 - 1 = 1 from rfl, List.getD_eq_getElem?_getD, List.getElem?_set_self (by rw [List.length_set]; omega),
      Option.getD_some]
    congr 1
    rw [List.getD_eq_getElem?_getD, List.getElem?_set_ne (by omega), ← List.getD_eq_getElem?_getD]
  have hcur : ∀ f < F.length, ((F.map fun l => l.take 3).getD f []).getD 0 0 = (F.getD f []).getD 0 0 := by
    intro f hf
    rw [List.getD_eq_getElem?_getD (l := F.map _), List.getElem?_map, List.getElem?_eq_getElem hf,
      List.getD_eq_getElem?_getD (l := F), List.getElem?_eq_getElem hf]
    simp only [Option.map_some, Option.getD_some]
    cases F[f] <;> rfl
  have hget : (fun a b => (mtw c J detJ dofs N).get b a) = ((List.range F.length).foldl (fun V f =>
      V.setBlock ((F.getD f []).getD 0 0 + 1) ((F.getD f []).getD 0 0) 1 2
        fun _ => Piola.edgeTransform J detJ (c.tangent f 0) (c.norm f)) (identity N (mtwDim 2 dofs))).get := by
    unfold mtw
    rw [hsd]
    simp only [Arr.T]
    rw [show 2 - 1 = 1 from rfl, hFm, List.length_map]
    refine congrArg Arr.get (foldl_congr_range _ _ _ _ fun V f hf => ?_)
    rw [hcur f hf]
  have hinj : ∀ f g, f < F.length → g < F.length → f ≠ g → (F.getD f []).getD 0 0 + 1 ≠ (F.getD g []).getD 0 0 + 1 := by
    intro f g hf hg hfg he
    obtain ⟨l, _, _, h1⟩ := hfacet f hf
    obtain ⟨l', _, _, h2⟩ := hfacet g hg
    rw [he, h2] at h1
    simp only [Node.facet.injEq] at h1
    exact hfg h1.1.symm
  have key := foldl_rows (fun (V : Arr K) f => V.setBlock ((F.getD f []).getD 0 0 + 1) ((F.getD f []).getD 0 0) 1 2
      fun _ => Piola.edgeTransform J detJ (c.tangent f 0) (c.norm f)) (fun f a => a = (F.getD f []).getD 0 0 + 1)
    (fun f _ r => fun b => if (F.getD f []).getD 0 0 ≤ b ∧ b < (F.getD f []).getD 0 0 + 2 then
      Piola.edgeTransform J detJ (c.tangent f 0) (c.norm f) (b - (F.getD f []).getD 0 0) else r b)
    (List.range F.length)
    (fun V f _ a ha => by
      simp only [Arr.setBlock]
      rw [if_pos (by omega)])
    (fun V f _ a ha => by
      simp only [Arr.setBlock]
      rw [if_neg (by omega)])
    (by
      refine List.pairwise_iff_getElem.2 fun x y hx hy hxy a ha hb => ?_
      rw [List.length_range] at hx hy
      rw [List.getElem_range] at ha hb
      exact hinj x y hx hy (by omega) (ha.symm.trans hb)) (identity N (mtwDim 2 dofs))
  refine vector_nodal N (mtwDim 2 dofs) hM node c.tangent D D' J detJ m.det m.ne
    (fun a b => (mtw c J detJ dofs N).get b a) (fun a ha => ⟨_, fun b _ => rfl, ?_⟩) φ hφ k hk i hi
  rw [show (fun b => (mtw c J detJ dofs N).get b a) = _ from congrFun hget a]
  by_cases hex : ∃ f < F.length, a = (F.getD f []).getD 0 0 + 1
  · obtain ⟨f, hf, haf⟩ := hex
    rw [key.1 f (List.mem_range.2 hf) a haf]
    obtain ⟨l, hlt, hn0, hn1⟩ := hfacet f hf
    intro u
    have hid : (identity N (mtwDim 2 dofs) : Arr K).get a = fun b => if a = b then 1 else 0 := rfl
    simp only [hid]
    rw [act_block N _ _ a _ 2 (by omega) (by omega) (by omega), haf, hn1]
    simp only [Node.value]
    rw [(facet_row c hd2 hsd J detJ m.det m.ne f (hgood f hf) l u).1 0 (by omega)]
    refine Finset.sum_congr rfl fun j hj => ?_
    have hj' := Finset.mem_range.1 hj
    have hrows : facetRows c J detJ f 0 j = Piola.edgeTransform J detJ (c.tangent f 0) (c.norm f) j := by
      unfold facetRows; rw [if_pos hsd]
    rw [hrows]
    obtain rfl | rfl : j = 0 ∨ j = 1 := by omega
    · rw [Nat.add_zero, hn0]
    · rw [hn1]
  · rw [key.2 a fun f hf haf => hex ⟨f, List.mem_range.1 hf, haf⟩]
    have hid : (identity N (mtwDim 2 dofs) : Arr K).get a = fun b => if a = b then 1 else 0 := rfl
    rw [hid]
    rcases hrest a ha (fun f hf haf => hex ⟨f, hf, haf⟩) with ⟨f, hf, l, hl⟩ | ⟨l, hl⟩
    · exact rowOK_normal N node c hd2 hsd D D' J detJ m.det m.ne a ha f (hgood f hf) l hl
    · exact rowOK_other N node c.tangent D D' J detJ m.det m.ne a ha l hl

end Ordered

/-! ### Concrete cases

Scalar functions are `a + b x + c y`, given by their coefficients. -/

namespace PiolaCases

/-- The functional `p a + q b + r c`. -/
def coef (p q r : ℚ) : (Fin 3 → ℚ) →ₗ[ℚ] ℚ where
  toFun a := p * a 0 + q * a 1 + r * a 2
  map_add' a b := by simp only [Pi.add_apply]; ring
  map_smul' a b := by simp only [Pi.smul_apply, smul_eq_mul, RingHom.id_apply]; ring

/-- The constant `p b + q c`: derivatives. -/
def slope (p q : ℚ) : (Fin 3 → ℚ) →ₗ[ℚ] (Fin 3 → ℚ) where
  toFun a := ![p * a 1 + q * a 2, 0, 0]
  map_add' a b := by funext i; fin_cases i <;> simp; ring
  map_smul' a b := by funext i; fin_cases i <;> simp; ring

def J21 : Nat → Nat → ℚ := fun i j => if i ≤ j then (if i = 0 ∧ j = 0 then 2 else 1) else 0

theorem det_J21 : (2 : ℚ) = det 2 J21 := by
  rw [det, Matrix.det_fin_two]; norm_num [J21]

/-- `∂/∂x̂ = 2 ∂/∂x`, `∂/∂ŷ = ∂/∂x + ∂/∂y`. -/
theorem map21 : CellMap J21 2 ![slope 1 0, slope 0 1] ![slope (1 / 2) 0, slope (-1 / 2) 1] where
  det := det_J21
  ne := by norm_num
  chain := by
    intro i a
    funext j
    fin_cases i <;> fin_cases j <;> simp [slope, J21] <;> ring

/-- Value at the origin and divergence there, for `(1, 0)`, `(0, 1)` and `(x, y) / 2`. -/
def asNode : Nat → Node ℚ (Fin 3 → ℚ) 2
  | 0 => .component (coef 1 0 0) 0
  | 1 => .component (coef 1 0 0) 1
  | _ => .divergence (coef 1 0 0)

def asBasis : Nat → Fin 2 → Fin 3 → ℚ
  | 0 => ![![1, 0, 0], ![0, 0, 0]]
  | 1 => ![![0, 0, 0], ![1, 0, 0]]
  | _ => ![![0, 1 / 2, 0], ![0, 0, 1 / 2]]

example := C62_alfeldSorokina (by decide) J21 2 _ _ map21 (fun _ _ _ => 0) [[[0, 1, 2]]] 3 (by unfold Partitions; decide)
  asNode (fun k => k == 2)
  (by
    intro k hk
    interval_cases k <;> simp [asNode])
  (by
    intro l hl
    have : l = [0, 1, 2] := by simpa using hl
    subst this
    exact ⟨[.vector (coef 1 0 0), .divergence (coef 1 0 0)], rfl⟩)
  asBasis
  (by
    intro i hi j hj
    interval_cases i <;> interval_cases j <;>
      simp [refNode, asNode, asBasis, Node.value, coef, slope, Fin.sum_univ_two] <;> norm_num)

/-- One edge with tangent `(3, 4)`. -/
def facet34 : Facets ℚ := ⟨2, 1, fun _ _ i => if i = 0 then 3 else 4, fun _ => 5⟩

theorem facet34_good (f : Nat) : GoodFacet 2 (facet34.tangent f) (facet34.norm f) :=
  ⟨fun _ => ⟨by norm_num [facet34], by norm_num [facet34, inner, Finset.sum_range_succ]⟩, fun h => absurd h (by decide)⟩

/-- The value at the origin, and the normal and tangential component at `(1, 0)`. -/
def brNode : Nat → Node ℚ (Fin 3 → ℚ) 2
  | 0 => .component (coef 1 0 0) 0
  | 1 => .component (coef 1 0 0) 1
  | 2 => .facet 0 (coef 1 1 0) 0
  | _ => .facet 0 (coef 1 1 0) 1

def brBasis : Nat → Fin 2 → Fin 3 → ℚ
  | 0 => ![![1, -1, 0], ![0, 0, 0]]
  | 1 => ![![0, 0, 0], ![1, -1, 0]]
  | 2 => ![![0, 4 / 25, 0], ![0, -3 / 25, 0]]
  | _ => ![![0, 3 / 25, 0], ![0, 4 / 25, 0]]

theorem brNodal : Nodal 4 (refNode facet34.tangent ![slope 1 0, slope 0 1] brNode) brBasis := by
  intro i hi j hj
  interval_cases i <;> interval_cases j <;>
    simp [refNode, brNode, brBasis, Node.value, coef, dotWith, frame, facet34, Fin.sum_univ_two] <;> norm_num

example := C62_bubble (.inl rfl) facet34 rfl J21 2 _ _ map21 [[[0, 1]], [[2, 3]], [[]]] 4
  ⟨by decide, by unfold Partitions; decide, fun f hf => ⟨[3], by
    obtain rfl : f = 0 := by simpa using hf
    rfl⟩, by decide⟩ brNode (fun _ => false)
  (by
    intro k hk
    interval_cases k <;> simp [brNode])
  (fun f _ => facet34_good f)
  (fun f hf => ⟨coef 1 1 0, by
    obtain rfl : f = 0 := by simpa using hf
    rfl⟩)
  (by
    intro q hq l hl
    match q with
    | 0 =>
      have : l = [0, 1] := by simpa using hl
      subst this
      exact ⟨[.vector (coef 1 0 0)], rfl⟩
    | 1 => exact absurd rfl hq
    | 2 =>
      have : l = [] := by simpa using hl
      subst this
      exact ⟨[], rfl⟩
    | q + 3 => simp at hl)
  brBasis brNodal

/-- Normal and tangential component at the origin, normal component at `(1, 0)`, and a constraint there. -/
def mtwNode : Nat → Node ℚ (Fin 3 → ℚ) 2
  | 0 => .facet 0 (coef 1 0 0) 0
  | 1 => .facet 0 (coef 1 0 0) 1
  | 2 => .facet 0 (coef 1 1 0) 0
  | _ => .other ((3 : ℚ) • (coef 1 1 0 ∘ₗ LinearMap.proj 0) + (4 : ℚ) • (coef 1 1 0 ∘ₗ LinearMap.proj 1))

def mtwBasis : Nat → Fin 2 → Fin 3 → ℚ
  | 0 => ![![4 / 25, -4 / 25, 0], ![-3 / 25, 3 / 25, 0]]
  | 1 => ![![3 / 25, -3 / 25, 0], ![4 / 25, -4 / 25, 0]]
  | 2 => ![![0, 4 / 25, 0], ![0, -3 / 25, 0]]
  | _ => ![![0, 3 / 25, 0], ![0, 4 / 25, 0]]

theorem mtwNodal : Nodal 4 (refNode facet34.tangent ![slope 1 0, slope 0 1] mtwNode) mtwBasis := by
  intro i hi j hj
  interval_cases i <;> interval_cases j <;>
    simp [refNode, mtwNode, mtwBasis, Node.value, coef, dotWith, frame, facet34, Fin.sum_univ_two] <;> norm_num

example := C62_mtw facet34 rfl J21 2 _ _ map21 [[[]], [[0, 1, 2]], [[3]]] (by decide) 4 (by decide) mtwNode
  (fun f _ => facet34_good f)
  (fun f hf => ⟨coef 1 0 0, by
    obtain rfl : f = 0 := by simpa using hf
    exact ⟨by decide, rfl, rfl⟩⟩)
  (by
    intro k hk hne
    interval_cases k
    · exact .inl ⟨0, by decide, _, rfl⟩
    · exact absurd rfl (hne 0 (by decide))
    · exact .inl ⟨0, by decide, _, rfl⟩
    · exact .inr ⟨_, rfl⟩)
  mtwBasis mtwNodal

end PiolaCases

end FInAT.Props
