import Verif.Lemmas.Cube
import Verif.Spec.Elem

/-! # `entity_dofs()` of element trees -/

namespace FInAT

open Spec

mutual
theorem isCube_iff : ∀ c : Cell, IsCube c ↔ c.isCube = true
  | .simplex d => by simp [IsCube, Cell.isCube]
  | .quad => by simp [IsCube, Cell.isCube]
  | .hex => by simp [IsCube, Cell.isCube]
  | .prod cs => by simp only [IsCube, Cell.isCube]; exact isCubeL_iff cs
theorem isCubeL_iff : ∀ cs : List Cell, IsCubeL cs ↔ Cell.isCubeL cs = true
  | [] => by simp [IsCubeL, Cell.isCubeL]
  | c :: cs => by simp [IsCubeL, Cell.isCubeL, isCube_iff c, isCubeL_iff cs]
end

theorem bind_ok {ε α β : Type _} {x : Except ε α} {f : α → Except ε β} {b : β} :
    (x >>= f) = .ok b ↔ ∃ a, x = .ok a ∧ f a = .ok b := by
  cases x with
  | error e => simp [bind, Except.bind]
  | ok a => simp [bind, Except.bind]

theorem uniqueOf_ok {α : Type} [DecidableEq α] {l : List α} {a : α} :
    uniqueOf l = .ok a ↔ l ≠ [] ∧ ∀ b ∈ l, b = a := by
  cases l with
  | nil => simp [uniqueOf]
  | cons x l =>
    simp only [uniqueOf]
    split
    · rename_i h
      simp only [List.all_eq_true, decide_eq_true_eq] at h
      simp only [Except.ok.injEq, ne_eq, reduceCtorEq, not_false_eq_true, List.mem_cons, forall_eq_or_imp, true_and]
      constructor
      · rintro rfl; exact ⟨rfl, h⟩
      · exact fun h' => h'.1
    · rename_i h
      simp only [reduceCtorEq, false_iff, not_and]
      intro _ h'
      apply h
      simp only [List.all_eq_true, decide_eq_true_eq]
      intro b hb
      rw [h' b (by simp [hb]), h' x (by simp)]

/-- What the induction carries for one element. -/
def DofsOK (e : Elem) : Prop :=
  ∀ c, e.cell = .ok c → ∃ d, e.entityDofs = .ok d ∧ Covers d c.topology ∧ Partition d e.spaceDim

/-- The factors of a tensor product as productise data. -/
theorem tensor_data : ∀ {fs : List Elem} {cs : List Cell}, (∀ f ∈ fs, DofsOK f) →
    Elem.cellL fs = .ok cs →
    ∃ ps : List PFactor, Elem.entityDofsL fs = .ok (ps.map (·.d)) ∧
      Elem.spaceDimL fs = ps.map (·.n) ∧ Cell.topologyL cs = ps.map (·.top) ∧
      (cs.map fun c => c.topology.map Prod.fst) = (ps.map fun f => f.top.map Prod.fst) ∧
      (∀ p ∈ ps, p.OK ∧ Partition p.d p.n) ∧
      ∀ c ∈ cs, ∃ p ∈ ps, p.top = c.topology
  | [], cs, _, h => by
    simp only [Elem.cellL, Except.ok.injEq] at h
    subst h
    exact ⟨[], rfl, rfl, rfl, rfl, by simp, by simp⟩
  | f :: fs, cs, hf, h => by
    simp only [Elem.cellL, bind_ok, pure, Except.pure, Except.ok.injEq] at h
    obtain ⟨c, hc, cs', hcs, rfl⟩ := h
    obtain ⟨ps, h1, h2, h3, h4, h5, h6⟩ := tensor_data (fun g hg => hf g (by simp [hg])) hcs
    obtain ⟨d, hd, hcov, hpart⟩ := hf f (by simp) c hc
    refine ⟨⟨f.spaceDim, c.topology, d⟩ :: ps, ?_, ?_, ?_, ?_, ?_, ?_⟩
    · simp [Elem.entityDofsL, hd, h1, bind, Except.bind, pure, Except.pure]
    · simp [Elem.spaceDimL, h2]
    · simp [Cell.topologyL, h3]
    · simp [h4]
    · intro p hp
      rcases List.mem_cons.1 hp with rfl | hp
      · refine ⟨⟨hcov, c.topology_nodup, ?_⟩, hpart⟩
        intro v hv
        exact List.mem_range.1 (hpart.mem_iff.1 hv)
      · exact h5 p hp
    · intro c' hc'
      rcases List.mem_cons.1 hc' with rfl | hc'
      · exact ⟨_, List.mem_cons_self, rfl⟩
      · obtain ⟨p, hp, h⟩ := h6 c' hc'
        exact ⟨p, by simp [hp], h⟩

theorem dofsOK_tensorProduct {fs : List Elem} (hf : ∀ f ∈ fs, DofsOK f) :
    DofsOK (.tensorProduct fs) := by
  intro c hc
  simp only [Elem.cell, bind_ok, pure, Except.pure, Except.ok.injEq] at hc
  obtain ⟨cs, hcs, rfl⟩ := hc
  obtain ⟨ps, h1, h2, h3, h4, h5, _⟩ := tensor_data hf hcs
  simp only [Elem.entityDofs, hcs, h1, h2, h4, bind, Except.bind]
  refine ⟨_, productise_eq (fun p hp => (h5 p hp).1), ?_, ?_⟩
  · simp only [Cell.topology, h3]
    exact covers_productise ps
  · simp only [Elem.spaceDim, h2]
    exact partition_productise (fun p hp => (h5 p hp).1) fun p hp => (h5 p hp).2

theorem cube_topology {c c' : Cell} (hc : c.isCube = true)
    (h : (if c.spatialDim = 2 then Except.ok .quad
      else if c.spatialDim = 3 then .ok .hex else .error Err.notImplemented) = .ok c') :
    Cell.flattenTop c.topology = c'.topology := by
  rw [Cell.flattenTop_cube hc]
  split at h
  · rename_i h2
    cases h
    rw [h2, Cell.topology_quad_eq]
  · split at h
    · rename_i h3
      cases h
      rw [h3, Cell.topology_hex_eq]
    · cases h

theorem dofsOK_flattened {p : Elem} (h : DofsOK p) (hc : ∀ c, p.cell = .ok c → IsCube c) :
    DofsOK (.flattened p) := by
  intro c' hc'
  simp only [Elem.cell, bind_ok] at hc'
  obtain ⟨c, hpc, hsel⟩ := hc'
  obtain ⟨d, hd, hcov, hpart⟩ := h c hpc
  refine ⟨flattenEntities d, by simp [Elem.entityDofs, hd, bind, Except.bind, pure, Except.pure], ?_, ?_⟩
  · rw [← cube_topology ((isCube_iff c).1 (hc c hpc)) hsel]
    exact covers_flatten hcov c.topology_nodup
  · exact partition_flatten hcov c.topology_nodup hpart

theorem cellL_mem : ∀ {es : List Elem} {cs : List Cell}, Elem.cellL es = .ok cs →
    List.Forall₂ (fun e c => e.cell = .ok c) es cs
  | [], cs, h => by simp only [Elem.cellL, Except.ok.injEq] at h; subst h; exact .nil
  | e :: es, cs, h => by
    simp only [Elem.cellL, bind_ok, pure, Except.pure, Except.ok.injEq] at h
    obtain ⟨c, hc, cs', hcs, rfl⟩ := h
    exact .cons hc (cellL_mem hcs)

theorem enriched_data {c : Cell} : ∀ {es : List Elem}, (∀ e ∈ es, DofsOK e) →
    (∀ e ∈ es, e.cell = .ok c) →
    ∃ xs : List (Nat × EntityDofs), Elem.entityDofsL es = .ok (xs.map Prod.snd) ∧
      Elem.spaceDimL es = xs.map Prod.fst ∧
      (∀ x ∈ xs, Covers x.2 c.topology ∧ Partition x.2 x.1)
  | [], _, _ => ⟨[], rfl, rfl, by simp⟩
  | e :: es, he, hcell => by
    obtain ⟨xs, h1, h2, h3⟩ := enriched_data (es := es) (fun g hg => he g (by simp [hg]))
      (fun g hg => hcell g (by simp [hg]))
    obtain ⟨d, hd, hcov, hpart⟩ := he e (by simp) c (hcell e (by simp))
    refine ⟨(e.spaceDim, d) :: xs, ?_, ?_, ?_⟩
    · simp [Elem.entityDofsL, hd, h1, bind, Except.bind, pure, Except.pure]
    · simp [Elem.spaceDimL, h2]
    · intro x hx
      rcases List.mem_cons.1 hx with rfl | hx
      · exact ⟨hcov, hpart⟩
      · exact h3 x hx

theorem enriched_cells {es : List Elem} {c : Cell} (hc : (Elem.enriched es).cell = .ok c) :
    es ≠ [] ∧ ∃ cs, Elem.cellL es = .ok cs ∧ uniqueOf cs = .ok c ∧ ∀ e ∈ es, e.cell = .ok c := by
  simp only [Elem.cell, bind_ok] at hc
  obtain ⟨cs, hcs, hu⟩ := hc
  have hf := cellL_mem hcs
  obtain ⟨hne, hall⟩ := uniqueOf_ok.1 hu
  refine ⟨?_, cs, hcs, hu, ?_⟩
  · rintro rfl
    cases hf
    exact hne rfl
  · clear hcs hu hne
    induction hf with
    | nil => simp
    | cons h _ ih =>
      intro e he
      rcases List.mem_cons.1 he with rfl | he
      · rw [h, hall _ List.mem_cons_self]
      · exact ih (fun b hb => hall b (by simp [hb])) e he

theorem dofsOK_enriched {es : List Elem} (he : ∀ e ∈ es, DofsOK e) : DofsOK (.enriched es) := by
  intro c hc
  obtain ⟨_, cs, hcs, hu, hcell⟩ := enriched_cells hc
  obtain ⟨xs, h1, h2, h3⟩ := enriched_data he hcell
  simp only [Elem.entityDofs, hcs, hu, h1, h2, bind, Except.bind]
  refine ⟨_, concatenateEntityDofs_eq c.topology_nodup xs (fun x hx => (h3 x hx).1),
    build_covers _ _, ?_⟩
  simp only [Elem.spaceDim, h2]
  exact partition_concat c.topology_nodup xs h3

mutual
theorem Elem.indexShape_prod : ∀ e : Elem, e.indexShape.prod = e.spaceDim
  | .leaf l => by simp [Elem.indexShape, Elem.spaceDim]
  | .tensorProduct fs => by
    simp only [Elem.indexShape, Elem.spaceDim]
    exact Elem.indexShapeL_prod fs
  | .flattened p => by simp only [Elem.indexShape, Elem.spaceDim]; exact p.indexShape_prod
  | .enriched es => by simp [Elem.indexShape, Elem.spaceDim]
  | .mixedSub e _ _ => by simp only [Elem.indexShape, Elem.spaceDim]; exact e.indexShape_prod
  | .discontinuous e => by simp only [Elem.indexShape, Elem.spaceDim]; exact e.indexShape_prod
  | .tensorFE e s t => by
    simp only [Elem.indexShape, Elem.spaceDim]; split <;> rfl
  | .hdiv e => by simp only [Elem.indexShape, Elem.spaceDim]; exact e.indexShape_prod
  | .hcurl e => by simp only [Elem.indexShape, Elem.spaceDim]; exact e.indexShape_prod
  | .quadrature _ _ _ => rfl
theorem Elem.indexShapeL_prod : ∀ es : List Elem,
    (Elem.indexShapeL es).flatten.prod = (Elem.spaceDimL es).prod
  | [] => rfl
  | e :: es => by
    simp only [Elem.indexShapeL, Elem.spaceDimL, List.flatten_cons, List.prod_append, List.prod_cons]
    rw [e.indexShape_prod, Elem.indexShapeL_prod es]
end

theorem Elem.tensorFE_spaceDim (e : Elem) (s : List Nat) (t : Bool) :
    (Elem.tensorFE e s t).spaceDim = e.spaceDim * s.prod := by
  simp only [Elem.spaceDim]
  split
  · rw [List.prod_append, e.indexShape_prod, Nat.mul_comm]
  · rw [List.prod_append, e.indexShape_prod]

theorem dofsOK_tensorFE {e : Elem} (h : DofsOK e) (s : List Nat) (t : Bool) :
    DofsOK (.tensorFE e s t) := by
  intro c hc
  simp only [Elem.cell] at hc
  obtain ⟨d, hd, hcov, hpart⟩ := h c hc
  simp only [Elem.entityDofs, hd, hc, bind, Except.bind]
  refine ⟨_, tensorFEDofs_eq hcov c.topology_nodup _ _ _, covers_tensorFE hcov c.topology_nodup _, ?_⟩
  rw [e.tensorFE_spaceDim]
  exact partition_tensorFE hcov c.topology_nodup hpart _ _

theorem dofsOK_discontinuous (e : Elem) : DofsOK (.discontinuous e) := by
  intro c hc
  simp only [Elem.cell] at hc
  simp only [Elem.entityDofs, hc, bind, Except.bind]
  refine ⟨_, discontinuousDofs_eq c.topology_nodup c.dimension_mem _, build_covers _ _, ?_⟩
  exact partition_interior c.topology_nodup c.dimension_mem _

theorem dofsOK_quadrature (r : Nat) (c : Cell) (ext : List Nat) : DofsOK (.quadrature r c ext) := by
  intro c' hc
  simp only [Elem.cell, Except.ok.injEq] at hc
  subst hc
  simp only [Elem.entityDofs, quadratureDofs_eq c.topology_nodup c.dimension_mem]
  refine ⟨_, rfl, build_covers _ _, ?_⟩
  exact partition_interior c.topology_nodup c.dimension_mem _

mutual
theorem dofsOK : ∀ e : Elem, Good e → DofsOK e
  | .leaf l, h => by
    intro c hc
    simp only [Elem.cell, Except.ok.injEq] at hc
    subst hc
    exact ⟨l.dofs, rfl, h.1, h.2⟩
  | .tensorProduct fs, h => dofsOK_tensorProduct (dofsOKL fs h)
  | .flattened p, h => dofsOK_flattened (dofsOK p h.1) h.2
  | .enriched es, h => dofsOK_enriched (dofsOKL es h)
  | .mixedSub e _ _, h => dofsOK e h
  | .discontinuous e, _ => dofsOK_discontinuous e
  | .tensorFE e s t, h => dofsOK_tensorFE (dofsOK e h) s t
  | .hdiv w, h => dofsOK w h
  | .hcurl w, h => dofsOK w h
  | .quadrature r c ext, _ => dofsOK_quadrature r c ext
theorem dofsOKL : ∀ es : List Elem, GoodL es → ∀ e ∈ es, DofsOK e
  | [], _, e, he => by simp at he
  | e :: es, h, e', he => by
    have h1 := dofsOK e h.1
    have h2 := dofsOKL es h.2
    rcases List.mem_cons.1 he with rfl | he
    · exact h1
    · exact h2 e' he
end

end FInAT
