import Verif.Lemmas.DofProps
import Mathlib.Tactic.FinCases

/-!
# Dof layout: properties C01-C10

Statements use the specification vocabulary of `Verif/Spec/Dofs.lean` and `Verif/Spec/Elem.lean`.
-/

namespace FInAT.Props

open FInAT FInAT.Spec

/-! ## Concrete elements used to show that the hypotheses can be met -/

/-- Linear Lagrange on the interval: one dof per vertex. -/
def cg1 : Leaf where
  id := 0
  kind := .fiat
  cell := .simplex 1
  formdegree := some 0
  valueShape := []
  mapping := some .affine
  degree := 1
  fns := [0, 1]
  dofs := [(.int 0, [(0, [0]), (1, [1])]), (.int 1, [(0, [])])]

/-- Quadratic Lagrange on the interval; FIAT numbers the vertices first. -/
def cg2 : Leaf where
  id := 1
  kind := .fiat
  cell := .simplex 1
  formdegree := some 0
  valueShape := []
  mapping := some .affine
  degree := 2
  fns := [0, 1, 2]
  dofs := [(.int 0, [(0, [0]), (1, [1])]), (.int 1, [(0, [2])])]

/-- Piecewise constants on the interval. -/
def dg0 : Leaf where
  id := 2
  kind := .dg
  cell := .simplex 1
  formdegree := some 1
  valueShape := []
  mapping := some .affine
  degree := 0
  fns := [0]
  dofs := [(.int 0, [(0, []), (1, [])]), (.int 1, [(0, [0])])]

/-- `Q2` on the quadrilateral. -/
def q2 : Elem := .flattened (.tensorProduct [.leaf cg2, .leaf cg2])

/-- A vector-valued enriched element on the quadrilateral: `Q2 + (DG0 x CG1 + CG1 x DG0)` as
two-component vectors. -/
def vec : Elem :=
  .tensorFE (.enriched [q2, .flattened (.tensorProduct [.leaf cg1, .leaf dg0]),
    .discontinuous (.flattened (.tensorProduct [.leaf dg0, .leaf cg1]))]) [2] true

theorem good_cg1 : GoodLeaf cg1 := by
  refine ⟨⟨by decide, ?_⟩, by decide⟩
  simp only [cg1, show (Cell.simplex 1).topology = [(.int 0, 2), (.int 1, 1)] by decide]
  simp only [List.mem_cons, List.not_mem_nil, or_false, forall_eq_or_imp, forall_eq]
  exact ⟨⟨_, .inl rfl, by decide⟩, ⟨_, .inr rfl, by decide⟩⟩

theorem good_cg2 : GoodLeaf cg2 := by
  refine ⟨⟨by decide, ?_⟩, by decide⟩
  simp only [cg2, show (Cell.simplex 1).topology = [(.int 0, 2), (.int 1, 1)] by decide]
  simp only [List.mem_cons, List.not_mem_nil, or_false, forall_eq_or_imp, forall_eq]
  exact ⟨⟨_, .inl rfl, by decide⟩, ⟨_, .inr rfl, by decide⟩⟩

theorem good_dg0 : GoodLeaf dg0 := by
  refine ⟨⟨by decide, ?_⟩, by decide⟩
  simp only [dg0, show (Cell.simplex 1).topology = [(.int 0, 2), (.int 1, 1)] by decide]
  simp only [List.mem_cons, List.not_mem_nil, or_false, forall_eq_or_imp, forall_eq]
  exact ⟨⟨_, .inl rfl, by decide⟩, ⟨_, .inr rfl, by decide⟩⟩

theorem cell_vec : vec.cell = .ok .quad := by rfl

theorem good_vec : Good vec := by
  refine ⟨⟨⟨good_cg2, good_cg2, trivial⟩, ?_⟩, ⟨⟨good_cg1, good_dg0, trivial⟩, ?_⟩,
    ⟨⟨good_dg0, good_cg1, trivial⟩, ?_⟩, trivial⟩ <;>
  · intro c hc
    cases hc
    exact ⟨Nat.le_refl 1, Nat.le_refl 1, trivial⟩

theorem pairwise_disj {α β : Type} {f : α → List β} {l : List α}
    (h : l.Pairwise (Function.onFun List.Disjoint f)) {a b : α} (ha : a ∈ l) (hb : b ∈ l) (hne : a ≠ b) :
    (f a).Disjoint (f b) :=
  haveI : Std.Symm (Function.onFun List.Disjoint f) := ⟨fun _ _ h => List.Disjoint.symm h⟩
  List.Pairwise.forall h ha hb hne

theorem entityDofsL_forall : ∀ {es : List Elem} {ds : List EntityDofs}, Elem.entityDofsL es = .ok ds →
    List.Forall₂ (fun e d => e.entityDofs = .ok d) es ds := by
  intro es
  induction es with
  | nil => intro ds h; simp only [Elem.entityDofsL, Except.ok.injEq] at h; subst h; exact .nil
  | cons e es ih =>
    intro ds h
    simp only [Elem.entityDofsL, bind_ok, pure, Except.pure, Except.ok.injEq] at h
    obtain ⟨d, hd, ds', hds, rfl⟩ := h
    exact .cons hd (ih hds)

/-! ## C01 -/

/-- **C01.** For every element tree over good FIAT leaves whose `cell` is defined, `entity_dofs()`
succeeds, its keys are exactly the entities of the cell, and the dof lists of all entities together
contain every number `0, ..., space_dimension() - 1` exactly once. -/
theorem C01_entity_dofs_partition (e : Elem) (c : Cell) (hg : Good e) (hc : e.cell = .ok c) :
    ∃ d, e.entityDofs = .ok d ∧ Covers d c.topology ∧ Partition d e.spaceDim :=
  dofsOK e hg c hc

/-- Non-vacuity of C01: a nested element with 26 dofs. -/
example : ∃ d, vec.entityDofs = .ok d ∧ Covers d Cell.quad.topology ∧ Partition d 26 :=
  C01_entity_dofs_partition vec .quad good_vec cell_vec

/-- No entity is missing and no dof is shared: two different entities never report the same dof. -/
theorem C01_entity_dofs_disjoint (e : Elem) (c : Cell) (hg : Good e) (hc : e.cell = .ok c)
    (d : EntityDofs) (hd : e.entityDofs = .ok d) (v : Nat) (hv : v < e.spaceDim) :
    ∃! x : Dim × Nat, (∃ n, (x.1, n) ∈ c.topology ∧ x.2 < n) ∧ v ∈ dofsOn d x.1 x.2 := by
  obtain ⟨d', hd', hcov, hpart⟩ := C01_entity_dofs_partition e c hg hc
  rw [hd] at hd'
  cases hd'
  have hperm := (allDofs_perm_top hcov c.topology_nodup).symm.trans hpart
  have hnd := hperm.nodup_iff.2 List.nodup_range
  have hm := hperm.mem_iff.2 (List.mem_range.2 hv)
  obtain ⟨p, hp, hm⟩ := List.mem_flatMap.1 hm
  obtain ⟨k, hk, hm⟩ := List.mem_flatMap.1 hm
  refine ⟨(p.1, k), ⟨⟨p.2, hp, List.mem_range.1 hk⟩, hm⟩, ?_⟩
  rintro ⟨dim, k'⟩ ⟨⟨n, hn, hk'⟩, hm'⟩
  simp only at hn hk' hm'
  by_contra hne
  rw [List.nodup_flatMap] at hnd
  by_cases hpe : (dim, n) = p
  · subst hpe
    have h1 := hnd.1 _ hp
    rw [List.nodup_flatMap] at h1
    have hkk : k ≠ k' := by rintro rfl; exact hne rfl
    exact pairwise_disj h1.2 hk (List.mem_range.2 hk') hkk hm hm'
  · have := pairwise_disj hnd.2 hp hn (Ne.symm hpe)
    exact this (List.mem_flatMap.2 ⟨k, hk, hm⟩) (List.mem_flatMap.2 ⟨k', List.mem_range.2 hk', hm'⟩)

/-! ## C02 -/

/-- **C02.** `space_dimension()` is the number of entries of a tensor of shape `index_shape`. -/
theorem C02_space_dimension (e : Elem) : e.spaceDim = e.indexShape.prod :=
  e.indexShape_prod.symm

example : vec.indexShape = [2, 13] ∧ vec.spaceDim = 26 := by decide

/-! ## C03 -/

/-- **C03.** In an enriched element the dof list of every entity is the concatenation of the dof
lists of the sub-elements on that entity, each shifted by the total space dimension of the
preceding sub-elements. -/
theorem C03_enriched_blocks (es : List Elem) (c : Cell) (hg : GoodL es)
    (hc : (Elem.enriched es).cell = .ok c) :
    ∃ (ds : List EntityDofs) (d : EntityDofs),
      List.Forall₂ (fun e d => e.entityDofs = .ok d) es ds ∧
      (Elem.enriched es).entityDofs = .ok d ∧ Covers d c.topology ∧
      ∀ dim n, (dim, n) ∈ c.topology → ∀ k < n,
        dofsOn d dim k = shiftedConcat 0 (List.zipWith (fun e d' => (e.spaceDim, dofsOn d' dim k)) es ds) := by
  obtain ⟨hne, cs, hcs, hu, hcell⟩ := enriched_cells hc
  obtain ⟨xs, h1, h2, h3⟩ := enriched_data (dofsOKL es hg) hcell
  refine ⟨xs.map Prod.snd, _, entityDofsL_forall h1, Eq.trans ?hE (concatenateEntityDofs_eq c.topology_nodup xs (fun x hx => (h3 x hx).1)), build_covers c.topology _, ?_⟩
  case hE => simp only [Elem.entityDofs, hcs, hu, h1, h2, bind, Except.bind]
  · intro dim n hn k hk
    rw [build_dofsOn c.topology_nodup _ hn hk]
    simp only [cumsum0]
    rw [shifted_eq 0 xs fun d => dofsOn d dim k]
    congr 1
    clear hcs hu hcell h1 h3 hc hg hne
    induction es generalizing xs with
    | nil =>
      have : xs = [] := by simpa [Elem.spaceDimL] using h2
      subst this; rfl
    | cons e es ih =>
      cases xs with
      | nil => simp [Elem.spaceDimL] at h2
      | cons x xs =>
        simp only [Elem.spaceDimL, List.map_cons, List.cons.injEq] at h2
        simp only [List.map_cons, List.zipWith_cons_cons, ih xs h2.2, h2.1]

/-- **C03**, entities that a sub-element does not mention: `concatenate_entity_dofs` for arbitrary
dictionaries whose keys are entities of the cell. Entities not mentioned contribute nothing
(`dofsOn` is empty there), and every entity of the cell is present in the result. -/
theorem C03_concatenate_unmentioned (c : Cell) (els : List (Nat × EntityDofs))
    (h : ∀ x ∈ els, x.2.keys.Nodup ∧ ∀ q ∈ x.2, q.2.keys.Nodup ∧
      ∃ n, (q.1, n) ∈ c.topology ∧ ∀ r ∈ q.2, r.1 < n) :
    ∃ d, concatenateEntityDofs c.topology (els.map Prod.fst) (els.map Prod.snd) = .ok d ∧
      Covers d c.topology ∧
      ∀ dim n, (dim, n) ∈ c.topology → ∀ k < n,
        dofsOn d dim k = shiftedConcat 0 (els.map fun x => (x.1, dofsOn x.2 dim k)) := by
  refine ⟨_, concatenate_general c.topology_nodup els h, build_covers _ _, ?_⟩
  intro dim n hn k hk
  rw [build_dofsOn c.topology_nodup _ hn hk]

/-- Non-vacuity of C03: the cell dofs of `Q2 + CG1xDG0` are the bubble and the shifted block. -/
example : ∃ d, (Elem.enriched [.leaf cg2, .leaf cg1]).entityDofs = .ok d ∧
    dofsOn d (.int 0) 1 = [1, 4] ∧ dofsOn d (.int 1) 0 = [2] := by
  refine ⟨_, rfl, ?_, ?_⟩ <;> decide

example (d : EntityDofs) (h : concatenateEntityDofs Cell.quad.topology [1, 2]
    [[(.int 2, [(0, [0])])], [(.int 0, [(3, [1, 0])])]] = .ok d) :
    dofsOn d (.int 0) 3 = [2, 1] ∧ dofsOn d (.int 1) 0 = [] ∧ dofsOn d (.int 2) 0 = [0] := by
  cases h; decide

/-! ## C04 -/

/-- **C04.** On the product entity `(e_1, ..., e_n)` (numbered row-major within its dimension tuple)
the dofs of a tensor product are the row-major numbers, in the shape of the factor space dimensions,
of all tuples of factor dofs on `e_1, ..., e_n`, in lexicographic order of the tuples' positions. -/
theorem C04_tensor_product_dofs (fs : List Elem) (cs : List Cell) (hg : GoodL fs)
    (hc : (Elem.tensorProduct fs).cell = .ok (.prod cs)) :
    ∃ (ds : List EntityDofs) (d : EntityDofs),
      List.Forall₂ (fun e d => e.entityDofs = .ok d) fs ds ∧
      (Elem.tensorProduct fs).entityDofs = .ok d ∧
      ∀ ps ∈ product (cs.map Cell.topology), ∀ ei,
        List.Forall₂ (fun i n => i < n) ei (ps.map Prod.snd) →
        dofsOn d (.tup (ps.map Prod.fst)) (ravel (ps.map Prod.snd) ei) =
          (product (List.zipWith (fun d (x : Dim × Nat) => dofsOn d x.1 x.2) ds
            ((ps.map Prod.fst).zip ei))).map (ravel (fs.map Elem.spaceDim)) := by
  simp only [Elem.cell, bind_ok, pure, Except.pure, Except.ok.injEq, Cell.prod.injEq] at hc
  obtain ⟨cs', hcs, rfl⟩ := hc
  obtain ⟨ps, h1, h2, h3, h4, h5, _⟩ := tensor_data (dofsOKL fs hg) hcs
  have hsd : ∀ es : List Elem, Elem.spaceDimL es = es.map Elem.spaceDim := by
    intro es
    induction es with
    | nil => rfl
    | cons e es ih => simp [Elem.spaceDimL, ih]
  refine ⟨ps.map (·.d), _, entityDofsL_forall h1, Eq.trans ?hE (productise_eq fun p hp => (h5 p hp).1), ?_⟩
  case hE => simp only [Elem.entityDofs, hcs, h1, h2, h4, bind, Except.bind]
  · intro qs hqs ei hei
    rw [← topologyL_eq, h3] at hqs
    rw [← hsd, h2, ← pick_eq]
    exact dofsOn_productise (fun p hp => (h5 p hp).1) hqs hei

/-- Non-vacuity of C04: in `CG2 x CG1` the edge `(interior of the first factor, vertex 1)` carries
dof `2 * 2 + 1`. -/
example : ∃ d, (Elem.tensorProduct [.leaf cg2, .leaf cg1]).entityDofs = .ok d ∧
    dofsOn d (.tup [.int 1, .int 0]) (ravel [1, 2] [0, 1]) = [5] := by
  refine ⟨_, rfl, ?_⟩; decide

/-! ## C05 -/

/-- **C05.** Entity number `k` of a dimension tuple in `entity_dofs()` is the product of the factor
entities that `basis_evaluation`/`point_evaluation` select for `(dims, k)`: `_factor_entity` succeeds
and the dofs of entity `k` are the products of the dofs of the selected factor entities. -/
theorem C05_factor_entity_agrees (fs : List Elem) (cs : List Cell) (hg : GoodL fs)
    (hc : (Elem.tensorProduct fs).cell = .ok (.prod cs)) (dims : List Dim) (n k : Nat)
    (hd : (Dim.tup dims, n) ∈ (Cell.prod cs).topology) (hk : k < n) :
    ∃ (ds : List EntityDofs) (d : EntityDofs) (ents : List (Dim × Nat)),
      List.Forall₂ (fun e d => e.entityDofs = .ok d) fs ds ∧
      (Elem.tensorProduct fs).entityDofs = .ok d ∧
      factorEntity cs (some (.tup dims, k)) = .ok ents ∧
      ents.map Prod.fst = dims ∧
      List.Forall₂ (fun (x : Dim × Nat) (c : Cell) => ∃ m, (x.1, m) ∈ c.topology ∧ x.2 < m) ents cs ∧
      dofsOn d (.tup dims) k = (product (List.zipWith (fun d (x : Dim × Nat) => dofsOn d x.1 x.2)
        ds ents)).map (ravel (fs.map Elem.spaceDim)) := by
  obtain ⟨ds, d, h1, h2, h3⟩ := C04_tensor_product_dofs fs cs hg hc
  simp only [Cell.topology, Cell.prodTop] at hd
  obtain ⟨ps, hps, heq⟩ := List.mem_map.1 hd
  simp only [Prod.mk.injEq, Dim.tup.injEq] at heq
  obtain ⟨rfl, rfl⟩ := heq
  have hb := unravel_bounds hk
  have hlen : (unravel (ps.map Prod.snd) k).length = ps.length := by
    simpa using hb.length_eq
  refine ⟨ds, d, _, h1, h2, factorEntity_eq hps hk, ?_, ?_, ?_⟩
  · rw [List.map_fst_zip]
    simp [hlen]
  · have hm := mem_product.1 hps
    rw [topologyL_eq] at hm
    clear h3 h2 h1 hps hd hk
    generalize unravel (ps.map Prod.snd) k = ei at hb hlen
    clear hc hg
    induction cs generalizing ps ei with
    | nil => cases hm; simp
    | cons c cs ih =>
      cases hm with
      | cons hp hps =>
        rename_i p ps'
        cases ei with
        | nil => simp at hlen
        | cons i ei =>
          simp only [List.map_cons, List.forall₂_cons] at hb
          simp only [List.map_cons, List.zip_cons_cons, List.forall₂_cons]
          exact ⟨⟨p.2, hp, hb.1⟩, ih ps' hps ei hb.2 (by simpa using hlen)⟩
  · have := h3 ps (by rw [← topologyL_eq]; exact hps) _ hb
    rwa [ravel_unravel hk] at this

/-- **C05**, one-to-one: every tuple of factor entities is selected for exactly one number. -/
theorem C05_factor_entity_bijective (cs : List Cell) (ps : List (Dim × Nat))
    (hps : List.Forall₂ (fun p (c : Cell) => p ∈ c.topology) ps cs) (ei : List Nat)
    (hei : List.Forall₂ (fun i (p : Dim × Nat) => i < p.2) ei ps) :
    ∃! k, k < (ps.map Prod.snd).prod ∧
      factorEntity cs (some (.tup (ps.map Prod.fst), k)) = .ok ((ps.map Prod.fst).zip ei) := by
  have hm : ps ∈ product (Cell.topologyL cs) := by
    rw [topologyL_eq, mem_product]
    exact List.forall₂_map_right_iff.2 hps
  have hb : List.Forall₂ (fun i n => i < n) ei (ps.map Prod.snd) := List.forall₂_map_right_iff.2 hei
  have hlt := ravel_lt hb
  refine ⟨ravel (ps.map Prod.snd) ei, ⟨hlt, ?_⟩, ?_⟩
  · rw [factorEntity_eq hm hlt, unravel_ravel hb]
  · rintro k ⟨hk, h⟩
    rw [factorEntity_eq hm hk] at h
    have h' := Except.ok.inj h
    have hl1 : (unravel (ps.map Prod.snd) k).length = (ps.map Prod.fst).length := by
      simpa using (unravel_bounds hk).length_eq
    have hl2 : ei.length = (ps.map Prod.fst).length := by simpa using hei.length_eq
    have := congrArg (List.map Prod.snd) h'
    rw [List.map_snd_zip (by omega), List.map_snd_zip (by omega)] at this
    rw [← this, ravel_unravel hk]

/-- **C05**, default: without an entity the cell of every factor is selected. -/
theorem C05_default_entity (cs : List Cell) :
    factorEntity cs none = .ok (cs.map fun c => (c.dimension, 0)) := by
  obtain ⟨ps, hps, h1, h2⟩ := Cell.dimensionL_mem cs
  have hp := h2
  have h := factorEntity_eq (k := 0) hps (by omega)
  have hd : Cell.dimensionL cs = cs.map Cell.dimension := by
    clear hps h1 h2 hp h
    induction cs with
    | nil => rfl
    | cons c cs ih => simp [Cell.dimensionL, ih]
  rw [h1] at h
  have hu : ∀ shape : List Nat, unravel shape 0 = shape.map fun _ => 0 := by
    intro shape
    induction shape with
    | nil => rfl
    | cons n ns ih => simp [unravel, ih]
  have hlen : ps.length = cs.length := by
    rw [length_of_mem_product hps, topologyL_eq, List.length_map]
  have hz : (cs.map Cell.dimension).zip ((ps.map Prod.snd).map fun _ => 0) =
      cs.map fun c => (c.dimension, 0) := by
    clear hps h1 h2 hp h hd
    induction cs generalizing ps with
    | nil => simp
    | cons c cs ih =>
      cases ps with
      | nil => simp at hlen
      | cons p ps => simpa using ih ps (by simpa using hlen)
  rw [hu, hd, hz] at h
  simpa [factorEntity, Cell.dimension, hd] using h

/-- Non-vacuity of C05: facet 3 of `((1, 0))` on `quadrilateral x interval` is (edge 1, vertex 1). -/
example : factorEntity [.quad, .simplex 1] (some (.tup [.int 1, .int 0], 3)) =
    .ok [(.int 1, 1), (.int 0, 1)] := by decide

/-! ## C06 -/

/-- **C06.** `FlattenedDimensions.entity_dofs()` reports for `(t, k)` the dofs that the product
element reports for the product entity on which `basis_evaluation`/`point_evaluation` tabulate when
asked for `(t, k)`. -/
theorem C06_flattened_entities (p : Elem) (c : Cell) (hg : Good (.flattened p)) (hc : p.cell = .ok c)
    (cf : Cell) (hcf : (Elem.flattened p).cell = .ok cf) :
    ∃ (d df : EntityDofs), p.entityDofs = .ok d ∧ (Elem.flattened p).entityDofs = .ok df ∧
      ∀ t n, (Dim.int t, n) ∈ cf.topology → ∀ k < n,
        ∃ dim ent, flattenedEntity c (some (t, k)) = .ok (dim, ent) ∧
          (∃ m, (dim, m) ∈ c.topology ∧ ent < m) ∧ dim.total = t ∧
          dofsOn df (.int t) k = dofsOn d dim ent := by
  obtain ⟨d, hd, hcov, hpart⟩ := dofsOK p hg.1 c hc
  have hdf : (Elem.flattened p).entityDofs = .ok (flattenEntities d) := by
    simp [Elem.entityDofs, hd, bind, Except.bind, pure, Except.pure]
  obtain ⟨df', hdf', hcovf, _⟩ := dofsOK (.flattened p) hg cf hcf
  rw [hdf] at hdf'
  cases hdf'
  refine ⟨d, _, hd, hdf, ?_⟩
  intro t n htn k hk
  obtain ⟨ents, g1, g2, g3⟩ := Covers.get hcovf cf.topology_nodup htn
  have hv := hasVals_flatten (Covers.hasVals hcov c.topology_nodup) c.topology_nodup t
  rw [g1] at hv
  split at hv
  · cases hv
    rw [valsOf_eq] at g3
    have hl : ((entList c.topology).filter fun x => x.1.total = t).length = n := by
      have := g3.length_eq
      simpa [enumFrom_keys] using this
    obtain ⟨x, hx⟩ : ∃ x, ((entList c.topology).filter fun x => x.1.total = t)[k]? = some x :=
      ⟨_, List.getElem?_eq_getElem (by omega)⟩
    have hu : (computeUnflatteningMap (topDict c.topology)).get? (t, k) = some x := by
      rw [computeUnflatteningMap_get?]; exact hx
    have hmem := List.mem_of_getElem? hx
    rw [List.mem_filter, mem_entList] at hmem
    refine ⟨x.1, x.2, Dict.get_eq_ok_iff.2 hu, hmem.1, by simpa using hmem.2, ?_⟩
    exact dofsOn_flatten hcov c.topology_nodup hu
  · cases hv

/-- **C06**, one-to-one: every entity of the product cell is tabulated for exactly one flat entity. -/
theorem C06_unflatten_bijective (c : Cell) (dim : Dim) (n ent : Nat) (hd : (dim, n) ∈ c.topology)
    (he : ent < n) :
    ∃! tk : Nat × Nat, flattenedEntity c (some tk) = .ok (dim, ent) := by
  obtain ⟨tk, h1, h2⟩ := unflatten_bijective c.topology_nodup hd he
  exact ⟨tk, Dict.get_eq_ok_iff.2 h1, fun tk' h => h2 tk' (Dict.get_eq_ok_iff.1 h)⟩

/-- **C06**, default: without an entity the cell of the product is selected. -/
theorem C06_default_entity (c : Cell) : flattenedEntity c none = .ok (c.dimension, 0) := by
  obtain ⟨⟨t, k⟩, h, _⟩ := C06_unflatten_bijective c c.dimension 1 0 c.dimension_mem (by omega)
  have h0 := Dict.get_eq_ok_iff.1 h
  have h' : ((entList c.topology).filter fun x => x.1.total = t)[k]? = some (c.dimension, 0) := by
    rw [← computeUnflatteningMap_get?]; exact h0
  have hm := List.mem_of_getElem? h'
  rw [List.mem_filter] at hm
  have ht : c.dimension.total = t := by simpa using hm.2
  have hall : ∀ x ∈ (entList c.topology).filter fun x => x.1.total = t, x = (c.dimension, 0) := by
    intro x hx
    rw [List.mem_filter] at hx
    obtain ⟨n, hn, hlt⟩ := mem_entList.1 hx.1
    have hd := (Cell.total_le c x.1 n hn).2 (by
      rw [← Cell.total_dimension]; simpa [ht] using hx.2)
    rw [hd] at hn
    have := top_mem_unique c.topology_nodup hn c.dimension_mem rfl
    simp only [Prod.mk.injEq, true_and] at this
    exact Prod.ext hd (by omega)
  have hnd : ((entList c.topology).filter fun x => x.1.total = t).Nodup :=
    (entList_nodup c.topology_nodup).filter _
  have hk : k = 0 := by
    obtain ⟨hk, _⟩ := List.getElem?_eq_some_iff.1 h'
    by_contra hne
    have e0 := hall _ (List.getElem_mem (by omega : 0 < _))
    have e1 := hall _ (List.getElem_mem hk)
    exact hne ((List.Nodup.getElem_inj_iff hnd).1 (e1.trans e0.symm))
  subst hk
  rw [Cell.total_dimension] at ht
  subst ht
  exact h

/-- Non-vacuity of C06: edge 2 of the quadrilateral is `((1, 0), 0)` of interval x interval; in `Q2` it
carries dof 6 = `2 * 3 + 0`. -/
example : flattenedEntity (.prod [.simplex 1, .simplex 1]) (some (1, 2)) =
    .ok (.tup [.int 1, .int 0], 0) := by decide

example : ∃ d, q2.entityDofs = .ok d ∧ dofsOn d (.int 1) 2 = [6] := by
  refine ⟨_, rfl, ?_⟩; decide

/-! ## C07 -/

/-- **C07.** With the default layout the dofs of an entity of a vector/tensor-valued element are, for
each base dof `v` on the entity in order and each component in row-major order, the row-major
position of (multi-index of `v`, component) in `index_shape`. -/
theorem C07_tensorFE_dofs (e : Elem) (c : Cell) (shape : List Nat) (hg : Good e) (hc : e.cell = .ok c) :
    ∃ d d', e.entityDofs = .ok d ∧ (Elem.tensorFE e shape false).entityDofs = .ok d' ∧
      ∀ dim n, (dim, n) ∈ c.topology → ∀ k < n,
        dofsOn d' dim k = (dofsOn d dim k).flatMap fun v => (ndindex shape).map fun comp =>
          ravel (Elem.tensorFE e shape false).indexShape (unravel e.indexShape v ++ comp) := by
  obtain ⟨d, hd, hcov, hpart⟩ := dofsOK e hg c hc
  refine ⟨d, _, hd, Eq.trans ?hE (tensorFEDofs_eq hcov c.topology_nodup shape.prod e.spaceDim false), ?_⟩
  case hE => simp only [Elem.entityDofs, hd, hc, bind, Except.bind]
  · intro dim n hn k hk
    rw [dofsOn_tensorFE hcov c.topology_nodup _ hn hk, expand_false]
    apply List.flatMap_congr
    intro v hv
    have hlt : v < e.indexShape.prod := by
      rw [e.indexShape_prod]
      have := (allDofs_perm_top hcov c.topology_nodup).symm.trans hpart
      exact List.mem_range.1 (this.mem_iff.1 (List.mem_flatMap.2 ⟨_, hn, List.mem_flatMap.2
        ⟨k, List.mem_range.2 hk, hv⟩⟩))
    have hl : (unravel e.indexShape v).length = e.indexShape.length := (unravel_bounds hlt).length_eq
    simp only [Elem.indexShape, Bool.false_eq_true, if_false]
    rw [← map_ravel_ndindex, List.map_map]
    apply List.map_congr_left
    intro comp _
    rw [Function.comp_apply, ravel_append hl, ravel_unravel hlt]

/-- **C07**, `transpose=True`: components come first, the number is the row-major position of
(component, multi-index of the base dof) in `index_shape`. -/
theorem C07_tensorFE_dofs_transpose (e : Elem) (c : Cell) (shape : List Nat) (hg : Good e)
    (hc : e.cell = .ok c) :
    ∃ d d', e.entityDofs = .ok d ∧ (Elem.tensorFE e shape true).entityDofs = .ok d' ∧
      ∀ dim n, (dim, n) ∈ c.topology → ∀ k < n,
        dofsOn d' dim k = (ndindex shape).flatMap fun comp => (dofsOn d dim k).map fun v =>
          ravel (Elem.tensorFE e shape true).indexShape (comp ++ unravel e.indexShape v) := by
  obtain ⟨d, hd, hcov, hpart⟩ := dofsOK e hg c hc
  refine ⟨d, _, hd, Eq.trans ?hE (tensorFEDofs_eq hcov c.topology_nodup shape.prod e.spaceDim true), ?_⟩
  case hE => simp only [Elem.entityDofs, hd, hc, bind, Except.bind]
  · intro dim n hn k hk
    rw [dofsOn_tensorFE hcov c.topology_nodup _ hn hk, expand_true, ← map_ravel_ndindex,
      List.flatMap_map]
    apply List.flatMap_congr
    intro comp hcomp
    apply List.map_congr_left
    intro v hv
    have hlt : v < e.indexShape.prod := by
      rw [e.indexShape_prod]
      have := (allDofs_perm_top hcov c.topology_nodup).symm.trans hpart
      exact List.mem_range.1 (this.mem_iff.1 (List.mem_flatMap.2 ⟨_, hn, List.mem_flatMap.2
        ⟨k, List.mem_range.2 hk, hv⟩⟩))
    simp only [Elem.indexShape, if_true]
    rw [ravel_append (mem_ndindex.1 hcomp).length_eq, ravel_unravel hlt, e.indexShape_prod]

/-- **C07**, count: every base dof contributes `prod(shape)` dofs to its entity. -/
theorem C07_tensorFE_count (e : Elem) (c : Cell) (shape : List Nat) (t : Bool) (hg : Good e)
    (hc : e.cell = .ok c) :
    ∃ d d', e.entityDofs = .ok d ∧ (Elem.tensorFE e shape t).entityDofs = .ok d' ∧
      ∀ dim n, (dim, n) ∈ c.topology → ∀ k < n,
        (dofsOn d' dim k).length = (dofsOn d dim k).length * shape.prod := by
  have hz : ∀ l : List Nat, ∀ m : Nat, (l.map fun _ => m).sum = l.length * m := by
    intro l m; simp
  cases t
  · obtain ⟨d, d', h1, h2, h3⟩ := C07_tensorFE_dofs e c shape hg hc
    refine ⟨d, d', h1, h2, fun dim n hn k hk => ?_⟩
    rw [h3 dim n hn k hk, List.length_flatMap]
    simp [length_ndindex]
  · obtain ⟨d, d', h1, h2, h3⟩ := C07_tensorFE_dofs_transpose e c shape hg hc
    refine ⟨d, d', h1, h2, fun dim n hn k hk => ?_⟩
    rw [h3 dim n hn k hk, List.length_flatMap]
    simp [length_ndindex, Nat.mul_comm]

/-- Non-vacuity of C07: vertex 1 of the two-component `CG2` on the interval. -/
example : ∃ d d', (Elem.tensorFE (.leaf cg2) [2] false).entityDofs = .ok d ∧
    (Elem.tensorFE (.leaf cg2) [2] true).entityDofs = .ok d' ∧
    dofsOn d (.int 0) 1 = [2, 3] ∧ dofsOn d' (.int 0) 1 = [1, 4] := by
  refine ⟨_, _, rfl, rfl, ?_, ?_⟩ <;> decide

/-! ## C08 -/

/-- What FInAT relies on from FIAT's `cell.sub_entities`: every listed sub-entity is an entity of the
cell, and none is listed twice for the same entity. -/
def SubEntitiesOK (subs : EntityMap (List (Dim × Nat))) (top : List (Dim × Nat)) : Prop :=
  subs.keys.Nodup ∧ ∀ p ∈ subs, p.2.keys.Nodup ∧
    ∀ q ∈ p.2, q.2.Nodup ∧ ∀ x ∈ q.2, ∃ n, (x.1, n) ∈ top ∧ x.2 < n

/-- The sub-entities listed for `(dim, ent)`. -/
def subsOf (subs : EntityMap (List (Dim × Nat))) (dim : Dim) (ent : Nat) : List (Dim × Nat) :=
  ((subs.get? dim).bind fun ents => ents.get? ent).getD []

theorem dofsOn_closure {subs : EntityMap (List (Dim × Nat))} {f : List (Dim × Nat) → List Nat}
    {dim : Dim} {ent : Nat} {ents : Dict Nat (List (Dim × Nat))} {l : List (Dim × Nat)}
    (h1 : subs.get? dim = some ents) (h2 : ents.get? ent = some l) :
    dofsOn (subs.map fun p => (p.1, p.2.map fun q => (q.1, f q.2))) dim ent = f l := by
  unfold dofsOn
  have e1 := Dict.map_get? (fun m : Dict Nat (List (Dim × Nat)) => m.map fun q => (q.1, f q.2)) subs dim
  rw [e1, h1, Option.map_some, Option.bind_some]
  have e2 := Dict.map_get? f ents ent
  rw [e2, h2]
  rfl

/-- **C08.** For every entity, `entity_closure_dofs()` is sorted, has no repetitions and contains dof
`v` iff `v` is a dof of one of the entity's sub-entities. -/
theorem C08_closure_dofs (e : Elem) (c : Cell) (hg : Good e) (hc : e.cell = .ok c)
    (subs : EntityMap (List (Dim × Nat))) (hs : SubEntitiesOK subs c.topology) :
    ∃ d cl, e.entityDofs = .ok d ∧ entityClosureDofs subs d = .ok cl ∧
      cl.keys = subs.keys ∧
      ∀ dim ents ent l, subs.get? dim = some ents → ents.get? ent = some l →
        (dofsOn cl dim ent).Pairwise (· < ·) ∧
        ∀ v, v ∈ dofsOn cl dim ent ↔ ∃ x ∈ l, v ∈ dofsOn d x.1 x.2 := by
  obtain ⟨d, hd, hcov, hpart⟩ := dofsOK e hg c hc
  refine ⟨d, _, hd, closure_eq c.topology_nodup hcov
    (fun p hp q hq x hx => ((hs.2 p hp).2 q hq).2 x hx), ?_, ?_⟩
  · simp [Dict.keys, Function.comp_def]
  · intro dim ents ent l h1 h2
    rw [dofsOn_closure (f := fun l => sortNat (l.flatMap fun x => dofsOn d x.1 x.2)) h1 h2]
    have hq := (hs.2 _ (Dict.mem_of_get?_eq_some h1)).2 _ (Dict.mem_of_get?_eq_some h2)
    constructor
    · -- sorted and without repetitions
      have hnd : (l.flatMap fun x => dofsOn d x.1 x.2).Nodup := by
        have hall := (allDofs_perm_top hcov c.topology_nodup).symm.trans hpart
        have hn := hall.nodup_iff.2 List.nodup_range
        have hent : (entList c.topology).flatMap (fun x => dofsOn d x.1 x.2) |>.Nodup := by
          unfold entList
          rw [List.flatMap_assoc]
          have hp2 : ((sortTop c.topology).flatMap fun p => (List.range p.2).flatMap fun k => dofsOn d p.1 k).Perm
              (c.topology.flatMap fun p => (List.range p.2).flatMap fun k => dofsOn d p.1 k) :=
            (sortBy_perm _ _).flatMap_right _
          have := hp2.nodup_iff.2 hn
          simpa [List.flatMap_map] using this
        rw [List.nodup_flatMap] at hent ⊢
        refine ⟨fun x hx => hent.1 x (mem_entList.2 (hq.2 x hx)), ?_⟩
        refine List.Pairwise.imp_of_mem ?_ hq.1
        intro x y hx hy hxy
        exact pairwise_disj hent.2 (mem_entList.2 (hq.2 x hx))
          (mem_entList.2 (hq.2 y hy)) hxy
      have hs' := sortNat_pairwise (l.flatMap fun x => dofsOn d x.1 x.2)
      have hnd' := (sortNat_perm _).nodup_iff.2 hnd
      exact List.Pairwise.imp₂ (fun a b h1 h2 => Nat.lt_of_le_of_ne h1 h2) hs' hnd'
    · intro v
      rw [(sortNat_perm _).mem_iff, List.mem_flatMap]

/-- **C08**, own dofs and monotonicity: if `(dim, ent)` is a sub-entity of itself its dofs are in its
closure, and if every sub-entity of one entity is a sub-entity of another the closures are nested. -/
theorem C08_closure_monotone (e : Elem) (c : Cell) (hg : Good e) (hc : e.cell = .ok c)
    (subs : EntityMap (List (Dim × Nat))) (hs : SubEntitiesOK subs c.topology)
    (d cl : EntityDofs) (hd : e.entityDofs = .ok d) (hcl : entityClosureDofs subs d = .ok cl)
    (dim dim' : Dim) (ents ents' : Dict Nat (List (Dim × Nat))) (ent ent' : Nat) (l l' : List (Dim × Nat))
    (h1 : subs.get? dim = some ents) (h2 : ents.get? ent = some l)
    (h1' : subs.get? dim' = some ents') (h2' : ents'.get? ent' = some l') :
    ((dim, ent) ∈ l → dofsOn d dim ent ⊆ dofsOn cl dim ent) ∧
    (l ⊆ l' → dofsOn cl dim ent ⊆ dofsOn cl dim' ent') := by
  obtain ⟨d0, cl0, hd0, hcl0, _, h⟩ := C08_closure_dofs e c hg hc subs hs
  rw [hd] at hd0; cases hd0
  rw [hcl] at hcl0; cases hcl0
  constructor
  · intro hm v hv
    exact ((h dim ents ent l h1 h2).2 v).2 ⟨_, hm, hv⟩
  · intro hll v hv
    obtain ⟨x, hx, hvx⟩ := ((h dim ents ent l h1 h2).2 v).1 hv
    exact ((h dim' ents' ent' l' h1' h2').2 v).2 ⟨x, hll hx, hvx⟩

/-- **C08**, the whole cell: when all entities are sub-entities of the cell, its closure lists
`0, ..., space_dimension() - 1`. -/
theorem C08_closure_cell (e : Elem) (c : Cell) (hg : Good e) (hc : e.cell = .ok c)
    (subs : EntityMap (List (Dim × Nat))) (hs : SubEntitiesOK subs c.topology)
    (d cl : EntityDofs) (hd : e.entityDofs = .ok d) (hcl : entityClosureDofs subs d = .ok cl)
    (ents : Dict Nat (List (Dim × Nat))) (l : List (Dim × Nat))
    (h1 : subs.get? c.dimension = some ents) (h2 : ents.get? 0 = some l)
    (hall : ∀ dim n, (dim, n) ∈ c.topology → ∀ k < n, (dim, k) ∈ l) :
    dofsOn cl c.dimension 0 = List.range e.spaceDim := by
  obtain ⟨d0, cl0, hd0, hcl0, _, h⟩ := C08_closure_dofs e c hg hc subs hs
  rw [hd] at hd0; cases hd0
  rw [hcl] at hcl0; cases hcl0
  obtain ⟨hs1, hs2⟩ := h _ ents 0 l h1 h2
  obtain ⟨d', hd', hcov, hpart⟩ := dofsOK e hg c hc
  rw [hd] at hd'; cases hd'
  have hperm := (allDofs_perm_top hcov c.topology_nodup).symm.trans hpart
  have hsub := ((hs.2 _ (Dict.mem_of_get?_eq_some h1)).2 _ (Dict.mem_of_get?_eq_some h2)).2
  have hset : ∀ v, v ∈ dofsOn cl c.dimension 0 ↔ v ∈ List.range e.spaceDim := by
    intro v
    rw [hs2, ← hperm.mem_iff]
    constructor
    · rintro ⟨x, hx, hv⟩
      obtain ⟨n, hn, hlt⟩ := hsub x hx
      exact List.mem_flatMap.2 ⟨_, hn, List.mem_flatMap.2 ⟨x.2, List.mem_range.2 hlt, hv⟩⟩
    · intro hv
      obtain ⟨p, hp, hv⟩ := List.mem_flatMap.1 hv
      obtain ⟨k, hk, hv⟩ := List.mem_flatMap.1 hv
      exact ⟨(p.1, k), hall p.1 p.2 hp k (List.mem_range.1 hk), hv⟩
  have hnd : (dofsOn cl c.dimension 0).Nodup := hs1.imp (fun h => Nat.ne_of_lt h)
  have hp : (dofsOn cl c.dimension 0).Perm (List.range e.spaceDim) :=
    (List.perm_ext_iff_of_nodup hnd List.nodup_range).2 hset
  refine hp.eq_of_pairwise ?_ (hs1.imp Nat.le_of_lt) (List.pairwise_lt_range.imp Nat.le_of_lt)
  intro a b _ _ h1 h2
  exact Nat.le_antisymm h1 h2

/-- Sub-entities of the interval as FIAT lists them. -/
def intervalSubs : EntityMap (List (Dim × Nat)) :=
  [(.int 0, [(0, [(.int 0, 0)]), (1, [(.int 0, 1)])]),
   (.int 1, [(0, [(.int 0, 0), (.int 0, 1), (.int 1, 0)])])]

/-- Non-vacuity of C08. -/
example : SubEntitiesOK intervalSubs (Cell.simplex 1).topology := by
  refine ⟨by decide, ?_⟩
  rw [show (Cell.simplex 1).topology = [(.int 0, 2), (.int 1, 1)] by decide]
  have h0 : ∀ k < 2, ∃ n, (Dim.int 0, n) ∈ [(Dim.int 0, 2), (Dim.int 1, 1)] ∧ k < n :=
    fun k hk => ⟨2, by simp, hk⟩
  have h1 : ∃ n, (Dim.int 1, n) ∈ [(Dim.int 0, 2), (Dim.int 1, 1)] ∧ 0 < n := ⟨1, by simp, by omega⟩
  intro p hp
  simp only [intervalSubs, List.mem_cons, List.not_mem_nil, or_false] at hp
  rcases hp with rfl | rfl
  · refine ⟨by decide, fun q hq => ?_⟩
    simp only [List.mem_cons, List.not_mem_nil, or_false] at hq
    rcases hq with rfl | rfl
    · refine ⟨by decide, fun x hx => ?_⟩
      rw [List.mem_singleton.1 hx]; exact h0 0 (by omega)
    · refine ⟨by decide, fun x hx => ?_⟩
      rw [List.mem_singleton.1 hx]; exact h0 1 (by omega)
  · refine ⟨by decide, fun q hq => ?_⟩
    rw [List.mem_singleton.1 hq]
    refine ⟨by decide, fun x hx => ?_⟩
    simp only [List.mem_cons, List.not_mem_nil, or_false] at hx
    rcases hx with rfl | rfl | rfl
    · exact h0 0 (by omega)
    · exact h0 1 (by omega)
    · exact h1

example : entityClosureDofs intervalSubs cg2.dofs =
    .ok [(.int 0, [(0, [0]), (1, [1])]), (.int 1, [(0, [0, 1, 2])])] := by decide

/-! ## C09 -/

/-- **C09.** A discontinuous element gives all dofs, in order, to the cell and none to any other
entity. -/
theorem C09_discontinuous_dofs (e : Elem) (c : Cell) (hc : e.cell = .ok c) :
    ∃ d, (Elem.discontinuous e).entityDofs = .ok d ∧ Covers d c.topology ∧
      dofsOn d c.dimension 0 = List.range e.spaceDim ∧
      ∀ dim n, (dim, n) ∈ c.topology → ∀ k < n, (dim, k) ≠ (c.dimension, 0) → dofsOn d dim k = [] := by
  refine ⟨_, Eq.trans ?hE (discontinuousDofs_eq c.topology_nodup c.dimension_mem e.spaceDim), build_covers _ _, ?_, ?_⟩
  case hE => simp only [Elem.entityDofs, hc, bind, Except.bind]
  · rw [build_dofsOn c.topology_nodup _ c.dimension_mem (by simp)]; simp
  · intro dim n hn k hk hne
    rw [build_dofsOn c.topology_nodup _ hn hk]
    simp only [ne_eq, Prod.mk.injEq] at hne
    simp [hne]

/-- **C09**, quadrature element. -/
theorem C09_quadrature_dofs (r : Nat) (c : Cell) (extents : List Nat) :
    ∃ d, (Elem.quadrature r c extents).entityDofs = .ok d ∧ Covers d c.topology ∧
      dofsOn d c.dimension 0 = List.range (Elem.quadrature r c extents).spaceDim ∧
      ∀ dim n, (dim, n) ∈ c.topology → ∀ k < n, (dim, k) ≠ (c.dimension, 0) → dofsOn d dim k = [] := by
  refine ⟨_, congrArg Except.ok (quadratureDofs_eq c.topology_nodup c.dimension_mem extents.prod),
    build_covers _ _, ?_, ?_⟩
  · rw [build_dofsOn c.topology_nodup _ c.dimension_mem (by simp)]; simp [Elem.spaceDim]
  · intro dim n hn k hk hne
    rw [build_dofsOn c.topology_nodup _ hn hk]
    simp only [ne_eq, Prod.mk.injEq] at hne
    simp [hne]

/-- **C09**, the wrapper changes nothing but the dof layout and the form degree. -/
theorem C09_discontinuous_shapes (e : Elem) :
    (Elem.discontinuous e).spaceDim = e.spaceDim ∧
    (Elem.discontinuous e).indexShape = e.indexShape ∧
    (Elem.discontinuous e).valueShape = e.valueShape ∧
    (Elem.discontinuous e).cell = e.cell ∧
    (Elem.discontinuous e).mapping = e.mapping := by
  simp [Elem.spaceDim, Elem.indexShape, Elem.valueShape, Elem.cell, Elem.mapping]

example : ∃ d, (Elem.discontinuous q2).entityDofs = .ok d ∧ dofsOn d (.int 2) 0 = [0,1,2,3,4,5,6,7,8] ∧
    dofsOn d (.int 0) 3 = [] := by
  refine ⟨_, rfl, ?_, ?_⟩ <;> decide

/-! ## C10 -/

/-- **C10.** Building an enriched element from elements without nested enriched elements gives an
element without nested enriched elements. -/
theorem C10_enriched_flat (es : List Elem) (h : ∀ e ∈ es, FlatEnriched e) :
    FlatEnriched (mkEnriched es) := flat_mkEnriched h

/-- **C10**, single element: `EnrichedElement([e])` is `e`. -/
theorem C10_enriched_single (e : Elem) (h : FlatEnriched e) (h1 : ∀ x, e ≠ .enriched [x]) :
    mkEnriched [e] = e := by
  cases e with
  | enriched es =>
    match es with
    | [] => rfl
    | [x] => exact absurd rfl (h1 x)
    | x :: y :: l => simp [mkEnriched, enrichedParts]
  | _ => rfl

/-- **C10**, order and grouping: grouping the arguments in any way does not change the result. -/
theorem C10_enriched_assoc (ess : List (List Elem)) (h : ∀ es ∈ ess, ∀ e ∈ es, FlatEnriched e) :
    mkEnriched (ess.map mkEnriched) = mkEnriched ess.flatten := by
  have h1 : (ess.map mkEnriched).flatMap enrichedParts = ess.flatten.flatMap enrichedParts := by
    induction ess with
    | nil => rfl
    | cons es ess ih =>
      simp only [List.map_cons, List.flatMap_cons, List.flatten_cons, List.flatMap_append]
      rw [enrichedParts_mkEnriched (h es (by simp)), ih fun es' hes => h es' (by simp [hes])]
  unfold mkEnriched at h1 ⊢
  rw [h1]

/-- **C10**, order preserving: when the result is an enriched element its sub-elements are, in order,
the given elements with enriched ones replaced by their sub-elements. -/
theorem C10_enriched_order (es : List Elem) (h : ∀ e ∈ es, FlatEnriched e) :
    (match mkEnriched es with
      | .enriched xs => xs
      | x => [x]) = es.flatMap fun e => match e with
      | .enriched xs => xs
      | x => [x] :=
  enrichedParts_mkEnriched h

/-- Non-vacuity of C10. -/
example : mkEnriched [mkEnriched [.leaf cg1, .leaf cg2], mkEnriched [.leaf dg0]] =
    .enriched [.leaf cg1, .leaf cg2, .leaf dg0] := by
  rfl

end FInAT.Props
