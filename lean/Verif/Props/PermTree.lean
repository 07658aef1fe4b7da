import Verif.Lemmas.PermTree
import Verif.Props.Perms
import Verif.Props.Closure

/-!
# C72: entity permutations of element trees
-/

namespace FInAT.Props

open FInAT FInAT.Spec

/-- All sub-entities of the cell `c` are listed for its interior. -/
def InteriorOK (subs : EntityMap (List (Dim × Nat))) (c : Cell) : Prop :=
  SubEntitiesOK subs c.topology ∧ ∃ ents lc, subs.get? c.dimension = some ents ∧ ents.get? 0 = some lc ∧
    ∀ dim n, (dim, n) ∈ c.topology → ∀ k < n, (dim, k) ∈ lc

/-- Every table of the list has an entry for an entity and orientation as soon as one of them has. -/
def SameOrients (ms : List PermMap) : Prop :=
  ∀ dim k o, ∀ m ∈ ms, ∀ m' ∈ ms, (permOn m dim k o).isSome → (permOn m' dim k o).isSome

mutual
/-- What the tree needs from FIAT: the tables of the leaves fit the dofs of the leaves, FIAT lists the sub-entities of the cells,
and the parts of an enriched element have the same orientations. -/
def PermsGiven (F : FiatPerms) (fiat : Leaf → EntityDofs) (subs : Cell → EntityMap (List (Dim × Nat))) : Elem → Prop
  | .leaf l => ∀ m, F.leaf l = .ok m → PermsFit l.cell.topology l.dofs m
  | .tensorProduct fs => PermsGivenL F fiat subs fs
  | .flattened p => PermsGiven F fiat subs p
  | .enriched es => PermsGivenL F fiat subs es ∧ ∀ ms, entityPermsL F fiat subs es = .ok ms → SameOrients ms
  | .hdiv w => PermsGiven F fiat subs w
  | .hcurl w => PermsGiven F fiat subs w
  | .discontinuous e => PermsGiven F fiat subs e ∧ (∀ l, closureLeaf e = some l → fiat l = l.dofs) ∧
      ∀ c, e.cell = .ok c → InteriorOK (subs c) c
  | .mixedSub _ _ _ => True
  | .tensorFE _ _ _ => True
  | .quadrature _ _ _ => True
/-- For all elements of a list. -/
def PermsGivenL (F : FiatPerms) (fiat : Leaf → EntityDofs) (subs : Cell → EntityMap (List (Dim × Nat))) :
    List Elem → Prop
  | [] => True
  | e :: es => PermsGiven F fiat subs e ∧ PermsGivenL F fiat subs es
end

/-- The permutations of `e`, when it has any, fit its dofs. -/
def FitsDofs (F : FiatPerms) (fiat : Leaf → EntityDofs) (subs : Cell → EntityMap (List (Dim × Nat))) (e : Elem) : Prop :=
  ∀ c m, e.cell = .ok c → entityPerms F fiat subs e = .ok m → ∃ d, e.entityDofs = .ok d ∧ PermsFit c.topology d m

/-! ### Discontinuous elements -/

theorem sameDofs_on {d d' : EntityDofs} (h : sameDofs d d' = true) {top : List (Dim × Nat)} (hn : (top.map Prod.fst).Nodup)
    (hc : Covers d top) {dim : Dim} {n k : Nat} (hd : (dim, n) ∈ top) (hk : k < n) :
    dofsOn d dim k = dofsOn d' dim k := by
  simp only [sameDofs, Bool.and_eq_true, decide_eq_true_eq, List.all_eq_true] at h
  obtain ⟨ents, h1, h2, h3⟩ := Covers.get hc hn hd
  obtain ⟨l, hl, hm⟩ := get?_of_perm_range h3 hk
  have := h.2 _ h2
  cases hg : d'.get? dim with
  | none => simp [hg] at this
  | some ents' =>
    simp only [hg, Bool.and_eq_true, decide_eq_true_eq, List.all_eq_true] at this
    have := this.2 _ hm
    simp only at this
    simp [dofsOn, h1, hl, hg, this]

/-- An element whose closure dofs are its dofs has all dofs on the cell. -/
theorem only_cell_dofs {fiat : Leaf → EntityDofs} {subs : Cell → EntityMap (List (Dim × Nat))} {e : Elem} {c : Cell}
    {d cl : EntityDofs} (hg : Good e) (hc : e.cell = .ok c) (hd : e.entityDofs = .ok d)
    (hcl : closureDofs fiat subs e = .ok cl) (hs : sameDofs d cl = true)
    (hf : ∀ l, closureLeaf e = some l → fiat l = l.dofs) (hi : InteriorOK (subs c) c) :
    dofsOn d c.dimension 0 = List.range e.spaceDim ∧
      ∀ dim n, (dim, n) ∈ c.topology → ∀ k < n, (dim, k) ≠ (c.dimension, 0) → dofsOn d dim k = [] := by
  obtain ⟨d', hd', hcov, hpart⟩ := C01_entity_dofs_partition e c hg hc
  rw [hd] at hd'; cases hd'
  obtain ⟨hs1, ents, lc, h1, h2, h3⟩ := hi
  rw [closureDofs_eq fiat subs e c d hc hd hf] at hcl
  have hcell := C08_closure_cell e c hg hc (subs c) hs1 d cl hd hcl ents lc h1 h2 h3
  have hall : dofsOn d c.dimension 0 = List.range e.spaceDim := by
    rw [sameDofs_on hs c.topology_nodup hcov c.dimension_mem Nat.one_pos, hcell]
  refine ⟨hall, fun dim n hdn k hk hne => List.eq_nil_iff_forall_not_mem.2 fun v hv => ?_⟩
  have hlt : v < e.spaceDim := by
    have hperm := (allDofs_perm_top hcov c.topology_nodup).symm.trans hpart
    exact List.mem_range.1 (hperm.mem_iff.1 (List.mem_flatMap.2 ⟨_, hdn, List.mem_flatMap.2 ⟨k, List.mem_range.2 hk, hv⟩⟩))
  obtain ⟨x, _, hu⟩ := C01_entity_dofs_disjoint e c hg hc d hd v hlt
  have e1 := hu (dim, k) ⟨⟨n, hdn, hk⟩, hv⟩
  have e2 := hu (c.dimension, 0) ⟨⟨1, c.dimension_mem, Nat.one_pos⟩, by rw [hall]; exact List.mem_range.2 hlt⟩
  exact hne (e1.trans e2.symm)

/-! ### Enriched elements -/

theorem enriched_fit {es : List Elem} {c : Cell} {ms : List PermMap} (hg : GoodL es)
    (hc : (Elem.enriched es).cell = .ok c)
    (hfit : List.Forall₂ (fun e m => ∃ d, e.entityDofs = .ok d ∧ PermsFit c.topology d m) es ms)
    (hsame : SameOrients ms) :
    ∃ d, (Elem.enriched es).entityDofs = .ok d ∧ PermsFit c.topology d (concatenateEntityPermutations ms) := by
  obtain ⟨ds, d, h1, h2, _, h4⟩ := C03_enriched_blocks es c hg hc
  have hne : ms ≠ [] := by
    rintro rfl
    cases hfit
    exact (enriched_cells hc).1 rfl
  have hfit' : List.Forall₂ (fun d m => PermsFit c.topology d m) ds ms := by
    clear h2 h4 hc hg hsame hne
    induction h1 generalizing ms with
    | nil => cases hfit; exact .nil
    | cons hd _ ih =>
      cases hfit with
      | cons hm hr =>
        obtain ⟨d', hd', hm⟩ := hm
        rw [hd] at hd'; cases hd'
        exact .cons hm (ih hr)
  have hmem : ∀ m ∈ ms, PermTable c.topology m := by
    intro m hm
    obtain ⟨i, hi, rfl⟩ := List.mem_iff_getElem.1 hm
    exact ((List.forall₂_iff_get.1 hfit').2 i (hfit'.length_eq ▸ hi) hi).table
  refine ⟨d, h2, concat_table c.topology_nodup hne hmem, fun dim n hdn k hk o q hq => ?_⟩
  have hkeys : ∀ m ∈ ms, DictKeys m := fun m hm => PermTable.dictKeys c.topology_nodup (hmem m hm)
  have hperm : ∀ m ∈ ms, ∀ p, permOn m dim k o = some p → p.Perm (List.range p.length) := by
    intro m hm p hp
    obtain ⟨i, hi, rfl⟩ := List.mem_iff_getElem.1 hm
    have := ((List.forall₂_iff_get.1 hfit').2 i (hfit'.length_eq ▸ hi) hi).perm dim n hdn k hk o p hp
    rw [this.length_eq, List.length_range]
    exact this
  obtain ⟨p1, p2⟩ := C11_permutation ms hkeys dim k o hperm q hq
  -- every part has the orientation
  have hsome : ∀ m ∈ ms, (permOn m dim k o).isSome := by
    rw [C11_blocks ms hkeys] at hq
    have : ms.filterMap (fun d => permOn d dim k o) ≠ [] := by
      intro h0; simp [h0] at hq
    obtain ⟨p, hp⟩ := List.exists_mem_of_ne_nil _ this
    obtain ⟨m, hm, hmp⟩ := List.mem_filterMap.1 hp
    intro m' hm'
    exact hsame dim k o m hm m' hm' (by simp [hmp])
  have hlen : ((ms.filterMap fun d => permOn d dim k o).map List.length).sum =
      (dofsOn d dim k).length := by
    rw [h4 dim n hdn k hk]
    have hsc : ∀ (xs : List (Nat × List Nat)) (a : Nat), (shiftedConcat a xs).length = (xs.map fun x => x.2.length).sum := by
      intro xs
      induction xs with
      | nil => intro a; rfl
      | cons x xs ih => intro a; obtain ⟨n, l⟩ := x; simp [shiftedConcat, ih]
    rw [hsc]
    clear hsc hq p1 p2 hne h2 h4 hc hg hsame hperm hkeys hmem hfit q
    induction hfit' generalizing es with
    | nil => cases h1; rfl
    | @cons d' m ds ms hd _ ih =>
      cases h1 with
      | cons he hr =>
        obtain ⟨p, hp⟩ := Option.isSome_iff_exists.1 (hsome m (by simp))
        have := (hd.perm dim n hdn k hk o p hp).length_eq
        rw [List.length_range] at this
        simp [hp, this, ih hr fun m' hm' => hsome m' (by simp [hm'])]
  rw [← hlen, ← p2]
  exact p1

/-! ### The main theorem -/

theorem entityPermsL_forall {F : FiatPerms} {fiat : Leaf → EntityDofs} {subs : Cell → EntityMap (List (Dim × Nat))} :
    ∀ {es : List Elem} {ms : List PermMap}, entityPermsL F fiat subs es = .ok ms →
      List.Forall₂ (fun e m => entityPerms F fiat subs e = .ok m) es ms
  | [], ms, h => by simp only [entityPermsL, Except.ok.injEq] at h; subst h; exact .nil
  | e :: es, ms, h => by
    simp only [entityPermsL, bind_ok, pure, Except.pure, Except.ok.injEq] at h
    obtain ⟨m, hm, ms', hms, rfl⟩ := h
    exact .cons hm (entityPermsL_forall hms)

/-- The tables of the factors of a product next to their dof tables. -/
theorem factors_fit {F : FiatPerms} {fiat : Leaf → EntityDofs} {subs : Cell → EntityMap (List (Dim × Nat))} :
    ∀ {fs : List Elem} {cs : List Cell} {ms : List PermMap} {ps : List PFactor}, (∀ f ∈ fs, FitsDofs F fiat subs f) →
      Elem.cellL fs = .ok cs → entityPermsL F fiat subs fs = .ok ms →
      Elem.entityDofsL fs = .ok (ps.map (·.d)) → Cell.topologyL cs = ps.map (·.top) →
      List.Forall₂ (fun (p : PFactor) m => PermsFit p.top p.d m) ps ms
  | [], cs, ms, ps, _, _, hm, hd, _ => by
    simp only [entityPermsL, Except.ok.injEq] at hm
    simp only [Elem.entityDofsL, Except.ok.injEq] at hd
    subst hm
    have : ps = [] := List.map_eq_nil_iff.1 hd.symm
    subst this
    exact .nil
  | f :: fs, cs, ms, ps, hf, hc, hm, hd, ht => by
    simp only [entityPermsL, Elem.cellL, Elem.entityDofsL, bind_ok, pure, Except.pure, Except.ok.injEq] at hm hc hd
    obtain ⟨m, hm, ms, hms, rfl⟩ := hm
    obtain ⟨c, hc, cs, hcs, rfl⟩ := hc
    obtain ⟨d, hd, ds, hds, hcons⟩ := hd
    cases ps with
    | nil => cases hcons
    | cons p ps =>
      simp only [List.map_cons, List.cons.injEq] at hcons
      simp only [Cell.topologyL, List.map_cons, List.cons.injEq] at ht
      obtain ⟨rfl, rfl⟩ := hcons
      refine .cons ?_ (factors_fit (fun g hg => hf g (by simp [hg])) hcs hms hds ht.2)
      obtain ⟨d', hd', hfit⟩ := hf f (by simp) c m hc hm
      rw [hd] at hd'; cases hd'
      rw [← ht.1]
      exact hfit

mutual
theorem fitsDofs {F : FiatPerms} {fiat : Leaf → EntityDofs} {subs : Cell → EntityMap (List (Dim × Nat))}
    (hF : AxesOK F) : ∀ e : Elem, Good e → PermsGiven F fiat subs e → FitsDofs F fiat subs e
  | .leaf l, hg, hp, c, m, hc, hm => by
    simp only [Elem.cell, Except.ok.injEq] at hc
    subst hc
    exact ⟨l.dofs, rfl, hp m hm⟩
  | .tensorProduct fs, hg, hp, c, m, hc, hm => by
    have hL := fitsDofsL hF fs hg hp
    simp only [Elem.cell, bind_ok, pure, Except.pure, Except.ok.injEq] at hc
    obtain ⟨cs, hcs, rfl⟩ := hc
    simp only [entityPerms, bind_ok] at hm
    obtain ⟨cs', hcs', ms, hms, hm⟩ := hm
    rw [hcs] at hcs'; cases hcs'
    obtain ⟨ps, h1, h2, h3, h4, h5, _⟩ := tensor_data (dofsOKL fs hg) hcs
    have hfit := factors_fit hL hcs hms h1 h3
    obtain ⟨_, hfit⟩ := product_fit hF cs (fun p hp => (h5 p hp).1) hfit h4 hm
    refine ⟨_, Eq.trans ?hE (productise_eq fun p hp => (h5 p hp).1), ?_⟩
    case hE => simp only [Elem.entityDofs, hcs, h1, h2, h4, bind, Except.bind]
    · rw [Cell.topology, h3]
      exact hfit
  | .flattened p, hg, hp, c', m, hc', hm => by
    have ih := fitsDofs hF p hg.1 hp
    simp only [Elem.cell, bind_ok] at hc'
    obtain ⟨c, hpc, hsel⟩ := hc'
    simp only [entityPerms, bind_ok, pure, Except.pure, Except.ok.injEq] at hm
    obtain ⟨m, hm, rfl⟩ := hm
    obtain ⟨d, hd, hfit⟩ := ih c m hpc hm
    obtain ⟨d', hd', hcov, _⟩ := C01_entity_dofs_partition p c hg.1 hpc
    rw [hd] at hd'; cases hd'
    refine ⟨flattenEntities d, by simp [Elem.entityDofs, hd, bind, Except.bind, pure, Except.pure], ?_⟩
    rw [← cube_topology ((isCube_iff c).1 (hg.2 c hpc)) hsel]
    exact (flatten_fit F c.topology_nodup hcov hfit).2
  | .enriched es, hg, hp, c, m, hc, hm => by
    have hL := fitsDofsL hF es hg hp.1
    simp only [entityPerms, bind_ok, pure, Except.pure, Except.ok.injEq] at hm
    obtain ⟨ms, hms, rfl⟩ := hm
    obtain ⟨_, _, _, _, hcell⟩ := enriched_cells hc
    refine enriched_fit hg hc ?_ (hp.2 ms hms)
    have hf := entityPermsL_forall hms
    rw [List.forall₂_iff_get] at hf ⊢
    refine ⟨hf.1, fun i h1 h2 => ?_⟩
    exact hL _ (List.get_mem _ _) c _ (hcell _ (List.get_mem _ _)) (hf.2 i h1 h2)
  | .hdiv w, hg, hp, c, m, hc, hm => by
    simp only [Elem.cell] at hc
    simp only [entityPerms] at hm
    simpa [Elem.entityDofs] using fitsDofs hF w hg hp c m hc hm
  | .hcurl w, hg, hp, c, m, hc, hm => by
    simp only [Elem.cell] at hc
    simp only [entityPerms] at hm
    simpa [Elem.entityDofs] using fitsDofs hF w hg hp c m hc hm
  | .discontinuous e, hg, hp, c, m, hc, hm => by
    have ih := fitsDofs hF e hg hp.1
    simp only [Elem.cell] at hc
    simp only [entityPerms, bind_ok] at hm
    obtain ⟨d, hd, cl, hcl, hm⟩ := hm
    split at hm
    · rename_i hs
      obtain ⟨d', hd', hfit⟩ := ih c m hc hm
      rw [hd] at hd'; cases hd'
      obtain ⟨k1, k2⟩ := only_cell_dofs (e := e) hg hc hd hcl hs hp.2.1 (hp.2.2 c hc)
      obtain ⟨dd, hdd, _, hcell, hrest⟩ := C09_discontinuous_dofs e c hc
      refine ⟨dd, hdd, hfit.table, fun dim n hdn k hk o q hq => ?_⟩
      have hlen : dofsOn dd dim k = dofsOn d dim k := by
        by_cases h : (dim, k) = (c.dimension, 0)
        · cases h; rw [hcell, k1]
        · rw [hrest dim n hdn k hk h, k2 dim n hdn k hk h]
      rw [hlen]
      exact hfit.perm dim n hdn k hk o q hq
    · cases hm
  | .mixedSub _ _ _, _, _, _, _, _, hm => by simp [entityPerms] at hm
  | .tensorFE _ _ _, _, _, _, _, _, hm => by simp [entityPerms] at hm
  | .quadrature _ _ _, _, _, _, _, _, hm => by simp [entityPerms] at hm
theorem fitsDofsL {F : FiatPerms} {fiat : Leaf → EntityDofs} {subs : Cell → EntityMap (List (Dim × Nat))}
    (hF : AxesOK F) : ∀ es : List Elem, GoodL es → PermsGivenL F fiat subs es → ∀ e ∈ es, FitsDofs F fiat subs e
  | [], _, _, e, he => by simp at he
  | e :: es, hg, hp, e', he => by
    have h1 := fitsDofs hF e hg.1 hp.1
    have h2 := fitsDofsL hF es hg.2 hp.2
    rcases List.mem_cons.1 he with rfl | he
    · exact h1
    · exact h2 e' he
end

/-- **C72.** Whenever `entity_permutations` of an element returns a table, the table has exactly the entities of the cell, and
every list in it is a permutation of `0, ..., n-1`, `n` the number of dofs of the entity in `entity_dofs()`. -/
theorem C72_permutations (F : FiatPerms) (fiat : Leaf → EntityDofs) (subs : Cell → EntityMap (List (Dim × Nat)))
    (hF : AxesOK F) (e : Elem) (c : Cell) (hg : Good e) (hp : PermsGiven F fiat subs e) (hc : e.cell = .ok c)
    (m : PermMap) (hm : entityPerms F fiat subs e = .ok m) :
    ∃ d, e.entityDofs = .ok d ∧ PermsFit c.topology d m :=
  fitsDofs hF e hg hp c m hc hm

/-- The dofs of the factors on the factor entities `(dims, ei)`. -/
def factorDofs (ds : List EntityDofs) (dims : List Dim) (ei : List Nat) : List (List Nat) :=
  List.zipWith (fun d (x : Dim × Nat) => dofsOn d x.1 x.2) ds (dims.zip ei)

/-- `sel` chooses an orientation, with its list, of every factor on the factor entities `(dims, ei)`. -/
def Chosen (ms : List PermMap) (dims : List Dim) (ei : List Nat) (sel : List (Dim × List Nat)) : Prop :=
  List.Forall₂ (fun s (mx : PermMap × Dim × Nat) => permOn mx.1 mx.2.1 mx.2.2 s.1 = some s.2) sel (ms.zip (dims.zip ei))

theorem zipWith_eq_map_zip {α β γ : Type} (f : α → β → γ) (l : List α) (r : List β) :
    List.zipWith f l r = (l.zip r).map fun p => f p.1 p.2 := by
  rw [List.zip, List.map_zipWith]

theorem chosen_iff {ms : List PermMap} {dims : List Dim} {ei : List Nat} {sel : List (Dim × List Nat)}
    (hk : ∀ d ∈ List.zipWith (fun m (x : Dim × Nat) => orients m x.1 x.2) ms (dims.zip ei), d.keys.Nodup) :
    Chosen ms dims ei sel ↔
      sel ∈ product (List.zipWith (fun m (x : Dim × Nat) => orients m x.1 x.2) ms (dims.zip ei)) := by
  rw [mem_product, Chosen]
  rw [zipWith_eq_map_zip] at hk ⊢
  rw [List.forall₂_map_right_iff]
  generalize ms.zip (dims.zip ei) = l at hk
  constructor
  · intro h
    refine h.imp fun a b hab => ?_
    rw [permOn_eq] at hab
    exact Dict.mem_of_get?_eq_some hab
  · intro h
    induction h with
    | nil => exact .nil
    | @cons a b sel l hab _ ih =>
      refine .cons ?_ (ih fun d hd => hk d (by simp [hd]))
      rw [permOn_eq]
      exact Dict.get?_eq_some_of_mem (hk _ (by simp)) hab

/-- Everything the theorems on products need. -/
theorem product_data {F : FiatPerms} {fiat : Leaf → EntityDofs} {subs : Cell → EntityMap (List (Dim × Nat))}
    (hF : AxesOK F) {fs : List Elem} {cs : List Cell} (hg : GoodL fs) (hp : PermsGivenL F fiat subs fs)
    (hc : (Elem.tensorProduct fs).cell = .ok (.prod cs)) {m : PermMap}
    (hm : entityPerms F fiat subs (.tensorProduct fs) = .ok m) :
    ∃ ms ds d, entityPermsL F fiat subs fs = .ok ms ∧
      List.Forall₂ (fun e d => e.entityDofs = .ok d) fs ds ∧ (Elem.tensorProduct fs).entityDofs = .ok d ∧
      ∀ qs ∈ product (cs.map Cell.topology), ∀ ei, List.Forall₂ (fun i n => i < n) ei (qs.map Prod.snd) →
        (orients m (.tup (qs.map Prod.fst)) (ravel (qs.map Prod.snd) ei)).keys.Nodup ∧
        orients m (.tup (qs.map Prod.fst)) (ravel (qs.map Prod.snd) ei) =
          makeTensorPerms F cs (qs.map Prod.fst)
            (List.zipWith (fun m (x : Dim × Nat) => orients m x.1 x.2) ms ((qs.map Prod.fst).zip ei)) ∧
        List.Forall₂ (fun (d : Dict Dim (List Nat)) n => d.keys.Nodup ∧ ∀ q ∈ d, q.2.Perm (List.range n))
          (List.zipWith (fun m (x : Dim × Nat) => orients m x.1 x.2) ms ((qs.map Prod.fst).zip ei))
          ((factorDofs ds (qs.map Prod.fst) ei).map List.length) ∧
        dofsOn d (.tup (qs.map Prod.fst)) (ravel (qs.map Prod.snd) ei) =
          (product (factorDofs ds (qs.map Prod.fst) ei)).map (ravel (fs.map Elem.spaceDim)) := by
  obtain ⟨ds, d, hds, hd, hdofs⟩ := C04_tensor_product_dofs fs cs hg hc
  have hL := fitsDofsL hF fs hg hp
  simp only [Elem.cell, bind_ok, pure, Except.pure, Except.ok.injEq, Cell.prod.injEq] at hc
  obtain ⟨cs', hcs, rfl⟩ := hc
  simp only [entityPerms, bind_ok] at hm
  obtain ⟨cs'', hcs', ms, hms, hm⟩ := hm
  rw [hcs] at hcs'; cases hcs'
  obtain ⟨ps, h1, h2, h3, h4, h5, _⟩ := tensor_data (dofsOKL fs hg) hcs
  have hfit := factors_fit hL hcs hms h1 h3
  obtain ⟨hor, hpf⟩ := product_fit hF cs' (fun p hp => (h5 p hp).1) hfit h4 hm
  have hds' : ds = ps.map (·.d) := by
    have := entityDofsL_forall h1
    clear * - hds this
    induction hds generalizing ps with
    | nil => cases ps with
      | nil => rfl
      | cons => cases this
    | cons h _ ih =>
      cases ps with
      | nil => cases this
      | cons p ps =>
        simp only [List.map_cons] at this ⊢
        cases this with
        | cons h' hr =>
          rw [h] at h'
          cases h'
          rw [← ih _ hr]
  refine ⟨ms, ds, d, hms, hds, hd, fun qs hqs ei hei => ?_⟩
  have hdof := hdofs qs hqs ei hei
  rw [← topologyL_eq, h3] at hqs
  have hall := factor_ops (fun p hp => (h5 p hp).1) hfit hqs hei
  rw [pick_eq, ← hds'] at hall
  have horq := hor qs hqs ei hei
  refine ⟨?_, horq, hall, hdof⟩
  rw [horq]
  refine makeTensorPerms_keys hF _ _ fun d hd => ?_
  obtain ⟨i, hi, rfl⟩ := List.mem_iff_getElem.1 hd
  exact ((List.forall₂_iff_get.1 hall).2 i hi (hall.length_eq ▸ hi)).1

/-- **C72**, products: the orientations of an entity of a product are exactly the combinations of an extrinsic orientation with an orientation of
every factor entity. The list of `(eo, o_1, ..., o_n)` is found by arranging the dofs of the entity in an array with the
numbers of factor dofs as shape: the position of multi-index `j` holds the number of the multi-index `i` whose
coordinate along the exchanged axis `sigma[k]` is entry `j[k]` of the list of `o_k`. -/
theorem C72_product (F : FiatPerms) (fiat : Leaf → EntityDofs) (subs : Cell → EntityMap (List (Dim × Nat)))
    (hF : AxesOK F) (fs : List Elem) (cs : List Cell) (hg : GoodL fs) (hp : PermsGivenL F fiat subs fs)
    (hc : (Elem.tensorProduct fs).cell = .ok (.prod cs)) (m : PermMap)
    (hm : entityPerms F fiat subs (.tensorProduct fs) = .ok m) :
    ∃ ms ds, entityPermsL F fiat subs fs = .ok ms ∧ List.Forall₂ (fun e d => e.entityDofs = .ok d) fs ds ∧
      ∀ qs ∈ product (cs.map Cell.topology), ∀ ei, List.Forall₂ (fun i n => i < n) ei (qs.map Prod.snd) →
        (∀ o p, permOn m (.tup (qs.map Prod.fst)) (ravel (qs.map Prod.snd) ei) o = some p →
          ∃ ax ∈ F.axes cs (qs.map Prod.fst) ((factorDofs ds (qs.map Prod.fst) ei).map List.length), ∃ sel,
            Chosen ms (qs.map Prod.fst) ei sel ∧ o = .tup (.int ax.1 :: sel.map Prod.fst)) ∧
        (∀ ax ∈ F.axes cs (qs.map Prod.fst) ((factorDofs ds (qs.map Prod.fst) ei).map List.length), ∀ sel,
          Chosen ms (qs.map Prod.fst) ei sel →
          ∃ p, permOn m (.tup (qs.map Prod.fst)) (ravel (qs.map Prod.snd) ei) (.tup (.int ax.1 :: sel.map Prod.fst)) = some p ∧
            ∀ j, List.Forall₂ (fun i n => i < n) j ((factorDofs ds (qs.map Prod.fst) ei).map List.length) →
            ∃ i, List.Forall₂ (fun i n => i < n) i ((factorDofs ds (qs.map Prod.fst) ei).map List.length) ∧
              p[ravel ((factorDofs ds (qs.map Prod.fst) ei).map List.length) j]? =
                some (ravel ((factorDofs ds (qs.map Prod.fst) ei).map List.length) i) ∧
              ∀ k < sel.length, i.getD (ax.2.getD k 0) 0 = ((sel.map Prod.snd).getD k []).getD (j.getD k 0) 0) := by
  obtain ⟨ms, ds, d, hms, hds, _, h⟩ := product_data hF hg hp hc hm
  refine ⟨ms, ds, hms, hds, fun qs hqs ei hei => ?_⟩
  obtain ⟨hk, hor, hall, _⟩ := h qs hqs ei hei
  have hkeys : ∀ d ∈ List.zipWith (fun m (x : Dim × Nat) => orients m x.1 x.2) ms ((qs.map Prod.fst).zip ei),
      d.keys.Nodup := by
    intro d hd
    obtain ⟨i, hi, rfl⟩ := List.mem_iff_getElem.1 hd
    exact ((List.forall₂_iff_get.1 hall).2 i hi (hall.length_eq ▸ hi)).1
  generalize hsh : (factorDofs ds (qs.map Prod.fst) ei).map List.length = shape at hall
  constructor
  · intro o p ho
    rw [permOn_eq, hor] at ho
    have hmem := Dict.mem_of_get?_eq_some ho
    unfold makeTensorPerms at hmem
    obtain ⟨ax, hax, hmem⟩ := List.mem_flatMap.1 hmem
    obtain ⟨sel, hsel, heq⟩ := List.mem_map.1 hmem
    obtain ⟨h1, _, _⟩ := shape_of_ops (hall.imp fun _ _ h => h.2) hsel
    rw [h1] at hax
    simp only [Prod.mk.injEq] at heq
    exact ⟨ax, hax, sel, (chosen_iff hkeys).2 hsel, heq.1.symm⟩
  · intro ax hax sel hch
    have hsel := (chosen_iff hkeys).1 hch
    obtain ⟨h1, h2, h3⟩ := shape_of_ops (hall.imp fun _ _ h => h.2) hsel
    have hmem : (Dim.tup (.int ax.1 :: sel.map Prod.fst), tensorPerm ax.2 (sel.map Prod.snd)) ∈
        makeTensorPerms F cs (qs.map Prod.fst)
          (List.zipWith (fun m (x : Dim × Nat) => orients m x.1 x.2) ms ((qs.map Prod.fst).zip ei)) := by
      unfold makeTensorPerms
      rw [h1]
      exact List.mem_flatMap.2 ⟨ax, hax, List.mem_map.2 ⟨sel, hsel, rfl⟩⟩
    refine ⟨tensorPerm ax.2 (sel.map Prod.snd), ?_, fun j hj => ?_⟩
    · rw [permOn_eq]
      exact Dict.get?_eq_some_of_mem hk (by rw [hor]; exact hmem)
    · rw [← h2] at hj
      obtain ⟨a1, a2⟩ := (hF cs (qs.map Prod.fst) shape).2 ax hax
      have hb := lookups_bounds h3 hj
      have hi := scatter_bounds (sigma := ax.2) (by rw [h2]; exact a1) (by rw [h2]; exact a2) hb
      have hget := tensorPerm_getElem (sigma := ax.2) hj
      rw [h2] at hi hget hb
      refine ⟨_, hi, hget, fun k hk => ?_⟩
      have hlen : sel.length = shape.length := by rw [← h2]; simp
      have hal : ax.2.length = shape.length := by simpa using a1.length_eq
      rw [scatter_getD (by rw [hal]; exact a1) _ (by rw [hal, ← hlen]; exact hk)]
      have hjl : j.length = sel.length := by simpa using hj.length_eq
      have hk' : k < (sel.map Prod.snd).length := by simpa using hk
      rw [List.getD_eq_getElem (l := lookups _ _) _ (by rw [hb.length_eq, ← hlen]; exact hk)]
      simp only [lookups, List.getElem_zipWith]
      rw [List.getD_eq_getElem (l := sel.map Prod.snd) _ hk', List.getD_eq_getElem (l := j) _ (by rw [hjl]; exact hk)]

/-- **C72**, products without an exchange of axes: the dofs of the entity, permuted by the list of `(eo, o_1, ..., o_n)`, are the products of the dofs
of the factor entities, each factor permuted by the list of its own orientation. -/
theorem C72_product_acts (F : FiatPerms) (fiat : Leaf → EntityDofs) (subs : Cell → EntityMap (List (Dim × Nat)))
    (hF : AxesOK F) (fs : List Elem) (cs : List Cell) (hg : GoodL fs) (hp : PermsGivenL F fiat subs fs)
    (hc : (Elem.tensorProduct fs).cell = .ok (.prod cs)) (m : PermMap)
    (hm : entityPerms F fiat subs (.tensorProduct fs) = .ok m) :
    ∃ ms ds d, entityPermsL F fiat subs fs = .ok ms ∧ List.Forall₂ (fun e d => e.entityDofs = .ok d) fs ds ∧
      (Elem.tensorProduct fs).entityDofs = .ok d ∧
      ∀ qs ∈ product (cs.map Cell.topology), ∀ ei, List.Forall₂ (fun i n => i < n) ei (qs.map Prod.snd) →
        ∀ eo, (eo, List.range fs.length) ∈
            F.axes cs (qs.map Prod.fst) ((factorDofs ds (qs.map Prod.fst) ei).map List.length) →
        ∀ sel, Chosen ms (qs.map Prod.fst) ei sel →
          ∃ p, permOn m (.tup (qs.map Prod.fst)) (ravel (qs.map Prod.snd) ei) (.tup (.int eo :: sel.map Prod.fst)) = some p ∧
            act p (dofsOn d (.tup (qs.map Prod.fst)) (ravel (qs.map Prod.snd) ei)) =
              (product (List.zipWith act (sel.map Prod.snd) (factorDofs ds (qs.map Prod.fst) ei))).map
                (ravel (fs.map Elem.spaceDim)) := by
  obtain ⟨ms, ds, d, hms, hds, hd, h⟩ := product_data hF hg hp hc hm
  refine ⟨ms, ds, d, hms, hds, hd, fun qs hqs ei hei eo hax sel hch => ?_⟩
  obtain ⟨hk, hor, hall, hdof⟩ := h qs hqs ei hei
  have hkeys : ∀ d ∈ List.zipWith (fun m (x : Dim × Nat) => orients m x.1 x.2) ms ((qs.map Prod.fst).zip ei),
      d.keys.Nodup := by
    intro d hd
    obtain ⟨i, hi, rfl⟩ := List.mem_iff_getElem.1 hd
    exact ((List.forall₂_iff_get.1 hall).2 i hi (hall.length_eq ▸ hi)).1
  have hsel := (chosen_iff hkeys).1 hch
  obtain ⟨h1, h2, h3⟩ := shape_of_ops (hall.imp fun _ _ h => h.2) hsel
  have hfl : fs.length = (sel.map Prod.snd).length := by
    have e1 : (entityPermsL F fiat subs fs) = .ok ms := hms
    have := congrArg List.length h2
    simp only [List.length_map] at this ⊢
    have hq : qs.length = cs.length := by simpa using length_of_mem_product hqs
    have hcl : cs.length = fs.length := by
      simp only [Elem.cell, bind_ok, pure, Except.pure, Except.ok.injEq, Cell.prod.injEq] at hc
      obtain ⟨cs', hcs, rfl⟩ := hc
      exact (cellL_mem hcs).length_eq.symm
    have hel : ei.length = qs.length := by simpa using hei.length_eq
    rw [this, factorDofs]
    simp [← hds.length_eq, hel, hq, hcl]
  refine ⟨tensorPerm (List.range fs.length) (sel.map Prod.snd), ?_, ?_⟩
  · rw [permOn_eq]
    refine Dict.get?_eq_some_of_mem hk ?_
    rw [hor]
    unfold makeTensorPerms
    rw [h1]
    exact List.mem_flatMap.2 ⟨_, hax, List.mem_map.2 ⟨sel, hsel, rfl⟩⟩
  · have hmap : ∀ (p : List Nat) (l : List (List Nat)), act p (l.map (ravel (fs.map Elem.spaceDim))) =
        (act p l).map (ravel (fs.map Elem.spaceDim)) := by
      intro p l
      unfold act
      rw [List.map_filterMap]
      exact List.filterMap_congr fun i _ => by simp
    rw [hdof, hmap, hfl, act_tensorPerm]
    have hs := mem_product.1 hsel
    clear hdof hax hch h1 hfl
    generalize factorDofs ds (qs.map Prod.fst) ei = ls at hall h2
    generalize List.zipWith (fun m (x : Dim × Nat) => orients m x.1 x.2) ms ((qs.map Prod.fst).zip ei) = ops at hall hs
    clear * - hall hs
    induction hs generalizing ls with
    | nil => cases ls with
      | nil => exact .nil
      | cons => cases hall
    | cons ha _ ih =>
      cases ls with
      | nil => cases hall
      | cons l ls =>
        simp only [List.map_cons] at hall ⊢
        cases hall with
        | cons h hr => exact .cons (h.2 _ ha) (ih _ hr)

/-! ### Flattened products -/

/-- **C72**, flattened products: entity `k` of dimension `t` has the permutations of the product entity it stands for (the one on which the
product is tabulated), under the integers FIAT gives to the orientations of the product, when it gives different integers to different orientations. -/
theorem C72_flattened (F : FiatPerms) (fiat : Leaf → EntityDofs) (subs : Cell → EntityMap (List (Dim × Nat)))
    (hF : AxesOK F) (p : Elem) (c : Cell) (hg : Good p) (hp : PermsGiven F fiat subs p) (hc : p.cell = .ok c)
    (m : PermMap) (hm : entityPerms F fiat subs (.flattened p) = .ok m) :
    ∃ m', entityPerms F fiat subs p = .ok m' ∧
      ∀ t k x, flattenedEntity c (some (t, k)) = .ok x →
        (∀ a b, (permOn m' x.1 x.2 a).isSome → (permOn m' x.1 x.2 b).isSome → F.flat x.1 a = F.flat x.1 b → a = b) →
        (∀ o, (permOn m' x.1 x.2 o).isSome → permOn m (.int t) k (F.flat x.1 o) = permOn m' x.1 x.2 o) ∧
        ∀ o', (permOn m (.int t) k o').isSome → ∃ o, (permOn m' x.1 x.2 o).isSome ∧ o' = F.flat x.1 o := by
  simp only [entityPerms, bind_ok, pure, Except.pure, Except.ok.injEq] at hm
  obtain ⟨m', hm', rfl⟩ := hm
  obtain ⟨d, hd, hfit⟩ := C72_permutations F fiat subs hF p c hg hp hc m' hm'
  obtain ⟨d', hd', hcov, _⟩ := C01_entity_dofs_partition p c hg hc
  rw [hd] at hd'; cases hd'
  obtain ⟨hor, _⟩ := flatten_fit F c.topology_nodup hcov hfit
  refine ⟨m', hm', fun t k x hx hinj => ?_⟩
  have hx' : (computeUnflatteningMap (topDict c.topology)).get? (t, k) = some x := by
    simp only [flattenedEntity, Option.getD_some] at hx
    exact Dict.get_eq_ok_iff.1 hx
  have hxm : ∃ n, (x.1, n) ∈ c.topology ∧ x.2 < n := by
    rw [computeUnflatteningMap_get?] at hx'
    have := List.mem_of_getElem? hx'
    rw [List.mem_filter] at this
    exact mem_entList.1 this.1
  obtain ⟨n, hn, hlt⟩ := hxm
  have hkeys := ((hfit.vals c.topology_nodup).2 _ _ hn _ hlt).1
  have hinj' : ∀ a ∈ (orients m' x.1 x.2).keys, ∀ b ∈ (orients m' x.1 x.2).keys, F.flat x.1 a = F.flat x.1 b → a = b := by
    intro a ha b hb
    refine hinj a b ?_ ?_ <;> rw [permOn_eq, Dict.get?_isSome_iff] <;> assumption
  have horx := hor t k x hx'
  rw [flatOrients_inj hkeys hinj'] at horx
  have hkeys' : (Dict.keys ((orients m' x.1 x.2).map fun r => (F.flat x.1 r.1, r.2))).Nodup := by
    simp only [Dict.keys, List.map_map]
    have := List.Nodup.map_on hinj' hkeys
    simpa [Dict.keys, List.map_map, Function.comp_def] using this
  constructor
  · intro o ho
    obtain ⟨q, hq⟩ := Option.isSome_iff_exists.1 ho
    rw [hq, permOn_eq, horx]
    rw [permOn_eq] at hq
    exact Dict.get?_eq_some_of_mem hkeys' (List.mem_map.2 ⟨_, Dict.mem_of_get?_eq_some hq, rfl⟩)
  · intro o' ho'
    rw [permOn_eq, horx, Dict.get?_isSome_iff] at ho'
    simp only [Dict.keys, List.map_map, List.mem_map, Function.comp_apply] at ho'
    obtain ⟨r, hr, rfl⟩ := ho'
    refine ⟨r.1, ?_, rfl⟩
    rw [permOn_eq, Dict.get?_isSome_iff]
    exact List.mem_map_of_mem (f := Prod.fst) hr

/-! ### Identities -/

/-- **C72**, identities: when no axes are exchanged and every chosen factor list is the identity, the list of the product is the identity. -/
theorem C72_product_identity (F : FiatPerms) (fiat : Leaf → EntityDofs) (subs : Cell → EntityMap (List (Dim × Nat)))
    (hF : AxesOK F) (fs : List Elem) (cs : List Cell) (hg : GoodL fs) (hp : PermsGivenL F fiat subs fs)
    (hc : (Elem.tensorProduct fs).cell = .ok (.prod cs)) (m : PermMap)
    (hm : entityPerms F fiat subs (.tensorProduct fs) = .ok m) :
    ∃ ms ds d, entityPermsL F fiat subs fs = .ok ms ∧ List.Forall₂ (fun e d => e.entityDofs = .ok d) fs ds ∧
      (Elem.tensorProduct fs).entityDofs = .ok d ∧
      ∀ qs ∈ product (cs.map Cell.topology), ∀ ei, List.Forall₂ (fun i n => i < n) ei (qs.map Prod.snd) →
        ∀ eo, (eo, List.range fs.length) ∈
            F.axes cs (qs.map Prod.fst) ((factorDofs ds (qs.map Prod.fst) ei).map List.length) →
        ∀ sel, Chosen ms (qs.map Prod.fst) ei sel → (∀ s ∈ sel, s.2 = List.range s.2.length) →
          permOn m (.tup (qs.map Prod.fst)) (ravel (qs.map Prod.snd) ei) (.tup (.int eo :: sel.map Prod.fst)) =
            some (List.range (dofsOn d (.tup (qs.map Prod.fst)) (ravel (qs.map Prod.snd) ei)).length) := by
  obtain ⟨ms, ds, d, hms, hds, hd, h⟩ := product_data hF hg hp hc hm
  refine ⟨ms, ds, d, hms, hds, hd, fun qs hqs ei hei eo hax sel hch hid => ?_⟩
  obtain ⟨hk, hor, hall, hdof⟩ := h qs hqs ei hei
  have hkeys : ∀ d ∈ List.zipWith (fun m (x : Dim × Nat) => orients m x.1 x.2) ms ((qs.map Prod.fst).zip ei),
      d.keys.Nodup := by
    intro d hd
    obtain ⟨i, hi, rfl⟩ := List.mem_iff_getElem.1 hd
    exact ((List.forall₂_iff_get.1 hall).2 i hi (hall.length_eq ▸ hi)).1
  have hsel := (chosen_iff hkeys).1 hch
  obtain ⟨h1, h2, h3⟩ := shape_of_ops (hall.imp fun _ _ h => h.2) hsel
  have hfl : fs.length = ((factorDofs ds (qs.map Prod.fst) ei).map List.length).length := by
    have hq : qs.length = cs.length := by simpa using length_of_mem_product hqs
    have hcl : cs.length = fs.length := by
      simp only [Elem.cell, bind_ok, pure, Except.pure, Except.ok.injEq, Cell.prod.injEq] at hc
      obtain ⟨cs', hcs, rfl⟩ := hc
      exact (cellL_mem hcs).length_eq.symm
    have hel : ei.length = qs.length := by simpa using hei.length_eq
    rw [factorDofs]
    simp [← hds.length_eq, hel, hq, hcl]
  have hrange : sel.map Prod.snd = ((factorDofs ds (qs.map Prod.fst) ei).map List.length).map List.range := by
    rw [← h2, List.map_map, List.map_map]
    exact List.map_congr_left fun s hs => hid s hs
  have hval : tensorPerm (List.range fs.length) (sel.map Prod.snd) =
      List.range (dofsOn d (.tup (qs.map Prod.fst)) (ravel (qs.map Prod.snd) ei)).length := by
    rw [hrange, hfl, tensorPerm_id, hdof, List.length_map, length_product]
  rw [← hval, permOn_eq]
  refine Dict.get?_eq_some_of_mem hk ?_
  rw [hor]
  unfold makeTensorPerms
  rw [h1]
  exact List.mem_flatMap.2 ⟨_, hax, List.mem_map.2 ⟨sel, hsel, rfl⟩⟩

/-! ### Where the table exists -/

mutual
/-- Built from FIAT elements that have permutations by products, flattening, enrichment and H(div)/H(curl) wrappers. -/
def Supported (F : FiatPerms) : Elem → Prop
  | .leaf l => ∃ m, F.leaf l = .ok m
  | .tensorProduct fs => SupportedL F fs
  | .flattened p => Supported F p
  | .enriched es => SupportedL F es
  | .hdiv w => Supported F w
  | .hcurl w => Supported F w
  | .discontinuous _ => False
  | .mixedSub _ _ _ => False
  | .tensorFE _ _ _ => False
  | .quadrature _ _ _ => False
/-- All elements of a list. -/
def SupportedL (F : FiatPerms) : List Elem → Prop
  | [] => True
  | e :: es => Supported F e ∧ SupportedL F es
end

mutual
theorem supported_ok {F : FiatPerms} {fiat : Leaf → EntityDofs} {subs : Cell → EntityMap (List (Dim × Nat))}
    (hF : AxesOK F) : ∀ (e : Elem) (c : Cell), Good e → PermsGiven F fiat subs e → e.cell = .ok c → Supported F e →
      ∃ m, entityPerms F fiat subs e = .ok m
  | .leaf l, _, _, _, _, hs => by simpa [entityPerms, Supported] using hs
  | .tensorProduct fs, c, hg, hp, hc, hs => by
    simp only [Elem.cell, bind_ok, pure, Except.pure, Except.ok.injEq] at hc
    obtain ⟨cs, hcs, rfl⟩ := hc
    obtain ⟨ms, hms⟩ := supported_okL hF fs cs hg hp hcs hs
    obtain ⟨ps, h1, h2, h3, h4, h5, _⟩ := tensor_data (dofsOKL fs hg) hcs
    have hfit := factors_fit (fitsDofsL hF fs hg hp) hcs hms h1 h3
    simp only [entityPerms, hcs, hms, bind, Except.bind]
    obtain ⟨qs, hq1, hq2, hq3⟩ : ∃ qs : List QFactor, qs.map (·.top) = ps.map (·.top) ∧ qs.map (·.m) = ms ∧
        ∀ f ∈ qs, f.OK := by
      clear * - hfit h5
      induction hfit with
      | nil => exact ⟨[], rfl, rfl, by simp⟩
      | @cons p m ps ms h _ ih =>
        obtain ⟨fs, h1, h2, h3⟩ := ih fun q hq => h5 q (by simp [hq])
        refine ⟨⟨p.top, m, orients m⟩ :: fs, by simp [h1], by simp [h2], ?_⟩
        intro f hf
        rcases List.mem_cons.1 hf with rfl | hf
        · exact ⟨(h.vals (h5 p (by simp)).1.nodup).1, (h5 p (by simp)).1.nodup⟩
        · exact h3 f hf
    rw [← hq2, composePermutations_eq F cs hq3]
    · exact ⟨_, rfl⟩
    · have e1 : (qs.map fun f => f.top.map Prod.fst) = (qs.map (·.top)).map (List.map Prod.fst) := by
        rw [List.map_map]; rfl
      have e2 : (ps.map fun f => f.top.map Prod.fst) = (ps.map (·.top)).map (List.map Prod.fst) := by
        rw [List.map_map]; rfl
      rw [h4, e1, e2, hq1]
  | .flattened p, c, hg, hp, hc, hs => by
    simp only [Elem.cell, bind_ok] at hc
    obtain ⟨c', hpc, _⟩ := hc
    obtain ⟨m, hm⟩ := supported_ok hF p c' hg.1 hp hpc hs
    exact ⟨_, by simp only [entityPerms, hm, bind, Except.bind]; rfl⟩
  | .enriched es, c, hg, hp, hc, hs => by
    obtain ⟨_, cs, hcs, _, _⟩ := enriched_cells hc
    obtain ⟨ms, hms⟩ := supported_okL hF es cs hg hp.1 hcs hs
    exact ⟨_, by simp only [entityPerms, hms, bind, Except.bind]; rfl⟩
  | .hdiv w, c, hg, hp, hc, hs => by
    simp only [entityPerms]
    exact supported_ok hF w c hg hp (by simpa [Elem.cell] using hc) hs
  | .hcurl w, c, hg, hp, hc, hs => by
    simp only [entityPerms]
    exact supported_ok hF w c hg hp (by simpa [Elem.cell] using hc) hs
  | .discontinuous _, _, _, _, _, hs => by simp [Supported] at hs
  | .mixedSub _ _ _, _, _, _, _, hs => by simp [Supported] at hs
  | .tensorFE _ _ _, _, _, _, _, hs => by simp [Supported] at hs
  | .quadrature _ _ _, _, _, _, _, hs => by simp [Supported] at hs
theorem supported_okL {F : FiatPerms} {fiat : Leaf → EntityDofs} {subs : Cell → EntityMap (List (Dim × Nat))}
    (hF : AxesOK F) : ∀ (es : List Elem) (cs : List Cell), GoodL es → PermsGivenL F fiat subs es →
      Elem.cellL es = .ok cs → SupportedL F es → ∃ ms, entityPermsL F fiat subs es = .ok ms
  | [], _, _, _, _, _ => ⟨[], rfl⟩
  | e :: es, cs, hg, hp, hc, hs => by
    simp only [Elem.cellL, bind_ok, pure, Except.pure, Except.ok.injEq] at hc
    obtain ⟨c, hc, cs', hcs, rfl⟩ := hc
    obtain ⟨m, hm⟩ := supported_ok hF e c hg.1 hp.1 hc hs.1
    obtain ⟨ms, hms⟩ := supported_okL hF es cs' hg.2 hp.2 hcs hs.2
    exact ⟨m :: ms, by simp [entityPermsL, hm, hms, bind, Except.bind, pure, Except.pure]⟩
end

/-- **C72**, where the table exists: `entity_permutations` returns on every tree of products, flattened products, enriched elements
and H(div)/H(curl) wrappers over FIAT elements that have permutations. -/
theorem C72_defined (F : FiatPerms) (fiat : Leaf → EntityDofs) (subs : Cell → EntityMap (List (Dim × Nat)))
    (hF : AxesOK F) (e : Elem) (c : Cell) (hg : Good e) (hp : PermsGiven F fiat subs e) (hc : e.cell = .ok c)
    (hs : Supported F e) : ∃ m, entityPerms F fiat subs e = .ok m :=
  supported_ok hF e c hg hp hc hs

/-- **C72**, discontinuous elements: a discontinuous element over an element with a dof outside the interior of the cell raises
`NotImplementedError`, although all its own dofs are in the interior. -/
theorem C72_discontinuous_raises (F : FiatPerms) (fiat : Leaf → EntityDofs)
    (subs : Cell → EntityMap (List (Dim × Nat))) (e : Elem) (c : Cell) (hg : Good e) (hc : e.cell = .ok c)
    (hf : ∀ l, closureLeaf e = some l → fiat l = l.dofs) (hi : InteriorOK (subs c) c) (d : EntityDofs)
    (hd : e.entityDofs = .ok d) (dim : Dim) (n k : Nat) (hdn : (dim, n) ∈ c.topology) (hk : k < n)
    (hne : (dim, k) ≠ (c.dimension, 0)) (hdof : dofsOn d dim k ≠ []) :
    entityPerms F fiat subs (.discontinuous e) = .error .notImplemented := by
  obtain ⟨d', cl, hd', hcl, _⟩ := C69_closure_partial fiat subs e c hg hc hi.1 hf
  rw [hd] at hd'; cases hd'
  simp only [entityPerms, hd, hcl, bind, Except.bind]
  rw [if_neg]
  intro hs
  exact hdof ((only_cell_dofs hg hc hd hcl hs hf hi).2 dim n hdn k hk hne)

/-- **C72**, discontinuous elements: otherwise the permutations are those of the wrapped element. -/
theorem C72_discontinuous_delegates (F : FiatPerms) (fiat : Leaf → EntityDofs)
    (subs : Cell → EntityMap (List (Dim × Nat))) (e : Elem) (m : PermMap)
    (hm : entityPerms F fiat subs (.discontinuous e) = .ok m) : entityPerms F fiat subs e = .ok m := by
  simp only [entityPerms, bind_ok] at hm
  obtain ⟨d, _, cl, _, hm⟩ := hm
  split at hm
  · exact hm
  · cases hm

/-- FIAT lists the sub-entities of every entity of the cell, and only the cell has its interior as a sub-entity. -/
def ProperSubs (subs : EntityMap (List (Dim × Nat))) (c : Cell) : Prop :=
  (subs.map Prod.fst).Perm (c.topology.map Prod.fst) ∧
  (∀ p ∈ c.topology, ∃ ents, (p.1, ents) ∈ subs ∧ (ents.map Prod.fst).Perm (List.range p.2)) ∧
  ∀ dim ents k l, subs.get? dim = some ents → ents.get? k = some l → (c.dimension, 0) ∈ l → (dim, k) = (c.dimension, 0)

/-- **C72**, discontinuous elements: over an element with all dofs in the interior of the cell, numbered in order, a
discontinuous element has the permutations of the element. -/
theorem C72_discontinuous_interior (F : FiatPerms) (fiat : Leaf → EntityDofs)
    (subs : Cell → EntityMap (List (Dim × Nat))) (e : Elem) (c : Cell) (hg : Good e) (hc : e.cell = .ok c)
    (hf : ∀ l, closureLeaf e = some l → fiat l = l.dofs) (hi : InteriorOK (subs c) c) (hp : ProperSubs (subs c) c)
    (d : EntityDofs) (hd : e.entityDofs = .ok d) (hcell : dofsOn d c.dimension 0 = List.range e.spaceDim) :
    entityPerms F fiat subs (.discontinuous e) = entityPerms F fiat subs e := by
  obtain ⟨d', hd', hcov, hpart⟩ := dofsOK e hg c hc
  rw [hd] at hd'; cases hd'
  obtain ⟨hs1, entsc, lc, h1, h2, h3⟩ := hi
  obtain ⟨hp1, hp2, hp3⟩ := hp
  have hcl := (closureDofs_eq fiat subs e c d hc hd hf).trans
    (closure_eq c.topology_nodup hcov (fun p hp q hq x hx => ((hs1.2 p hp).2 q hq).2 x hx))
  have hcc := C08_closure_cell e c hg hc (subs c) hs1 d _ hd
    (closure_eq c.topology_nodup hcov (fun p hp q hq x hx => ((hs1.2 p hp).2 q hq).2 x hx)) entsc lc h1 h2 h3
  rw [dofsOn_closure (f := fun l => sortNat (l.flatMap fun x => dofsOn d x.1 x.2)) h1 h2] at hcc
  -- no dofs elsewhere
  have hnil : ∀ dim n, (dim, n) ∈ c.topology → ∀ k < n, (dim, k) ≠ (c.dimension, 0) → dofsOn d dim k = [] := by
    intro dim n hdn k hk hne
    refine List.eq_nil_iff_forall_not_mem.2 fun v hv => ?_
    have hlt : v < e.spaceDim := by
      have hperm := (allDofs_perm_top hcov c.topology_nodup).symm.trans hpart
      exact List.mem_range.1 (hperm.mem_iff.1 (List.mem_flatMap.2 ⟨_, hdn, List.mem_flatMap.2 ⟨k, List.mem_range.2 hk, hv⟩⟩))
    obtain ⟨x, _, hu⟩ := C01_entity_dofs_disjoint e c hg hc d hd v hlt
    have e1 := hu (dim, k) ⟨⟨n, hdn, hk⟩, hv⟩
    have e2 := hu (c.dimension, 0) ⟨⟨1, c.dimension_mem, Nat.one_pos⟩, by rw [hcell]; exact List.mem_range.2 hlt⟩
    exact hne (e1.trans e2.symm)
  have hnd : (subs c).keys.Nodup := hs1.1
  simp only [entityPerms, hd, hcl, bind, Except.bind]
  rw [if_pos]
  simp only [sameDofs, Bool.and_eq_true, decide_eq_true_eq, List.all_eq_true, List.length_map]
  refine ⟨by have := hcov.1.length_eq; have h' := hp1.length_eq; simp only [List.length_map] at this h'; omega, fun p hpd => ?_⟩
  have hpt : p.1 ∈ c.topology.map Prod.fst := hcov.1.mem_iff.1 (List.mem_map_of_mem hpd)
  obtain ⟨⟨dim, n⟩, hdn, hpe⟩ := List.mem_map.1 hpt
  obtain ⟨ents, g1, g2, g3⟩ := Covers.get hcov c.topology_nodup hdn
  have hpeq : p.2 = ents := by
    have := Dict.get?_eq_some_of_mem (hcov.1.nodup_iff.2 c.topology_nodup) (show (p.1, p.2) ∈ d from hpd)
    simp only at hpe g1
    rw [← hpe, g1] at this
    exact (Option.some.inj this).symm
  obtain ⟨sents, s1, s2⟩ := hp2 _ hdn
  have hsg := Dict.get?_eq_some_of_mem hnd s1
  have e1 := Dict.map_get? (fun m : Dict Nat (List (Dim × Nat)) =>
    m.map fun q => (q.1, sortNat (q.2.flatMap fun x => dofsOn d x.1 x.2))) (subs c) dim
  simp only at hpe hsg
  rw [← hpe, e1, hsg]
  simp only [Option.map_some, Bool.and_eq_true, decide_eq_true_eq, List.all_eq_true, List.length_map, hpeq]
  refine ⟨by have := g3.length_eq; have h' := s2.length_eq; simp only [List.length_map] at this h'; omega, fun q hq => ?_⟩
  have hqn : q.1 < n := List.mem_range.1 (g3.mem_iff.1 (List.mem_map_of_mem hq))
  have hqk : ents.get? q.1 = some q.2 :=
    Dict.get?_eq_some_of_mem (g3.nodup_iff.2 List.nodup_range) (show (q.1, q.2) ∈ ents from hq)
  have hdq : dofsOn d dim q.1 = q.2 := by simp only at g1; simp [dofsOn, g1, hqk]
  have hsq : q.1 ∈ sents.keys := s2.mem_iff.2 (List.mem_range.2 hqn)
  obtain ⟨l, hl⟩ := Option.isSome_iff_exists.1 (Dict.get?_isSome_iff.2 hsq)
  have e2 := Dict.map_get? (fun l => sortNat (l.flatMap fun x => dofsOn d x.1 x.2)) sents q.1
  rw [e2, hl, Option.map_some, ← hdq]
  by_cases hcd : (dim, q.1) = (c.dimension, 0)
  · obtain ⟨rfl, hq0⟩ := Prod.mk.inj hcd
    rw [hq0] at hl ⊢
    rw [h1] at hsg
    cases hsg
    rw [h2] at hl
    cases hl
    rw [hcc, hcell]
  · rw [hnil dim n hdn q.1 hqn hcd]
    have : (l.flatMap fun x => dofsOn d x.1 x.2) = [] := by
      refine List.flatMap_eq_nil_iff.2 fun x hx => ?_
      have hxt := ((hs1.2 _ s1).2 _ (Dict.mem_of_get?_eq_some hl)).2 x hx
      obtain ⟨m, hm, hxm⟩ := hxt
      refine hnil x.1 m hm x.2 hxm fun h => hcd ?_
      refine hp3 dim sents q.1 l hsg hl ?_
      rw [← h]
      exact hx
    rw [this]
    rfl

mutual
/-- A part of a mixed element, a tensor-valued element or a quadrature element occurs in the tree. -/
def Blocks : Elem → Prop
  | .leaf _ => False
  | .tensorProduct fs => BlocksL fs
  | .flattened p => Blocks p
  | .enriched es => BlocksL es
  | .hdiv w => Blocks w
  | .hcurl w => Blocks w
  | .discontinuous e => Blocks e
  | .mixedSub _ _ _ => True
  | .tensorFE _ _ _ => True
  | .quadrature _ _ _ => True
/-- In some element of the list. -/
def BlocksL : List Elem → Prop
  | [] => False
  | e :: es => Blocks e ∨ BlocksL es
end

mutual
theorem blocked {F : FiatPerms} {fiat : Leaf → EntityDofs} {subs : Cell → EntityMap (List (Dim × Nat))} :
    ∀ e : Elem, Blocks e → ∀ m, entityPerms F fiat subs e ≠ .ok m
  | .leaf _, h, _, _ => by simp [Blocks] at h
  | .tensorProduct fs, h, m, hm => by
    simp only [entityPerms, bind_ok] at hm
    obtain ⟨_, _, ms, hms, _⟩ := hm
    exact blockedL fs h ms hms
  | .flattened p, h, m, hm => by
    simp only [entityPerms, bind_ok] at hm
    obtain ⟨m, hm, _⟩ := hm
    exact blocked p h m hm
  | .enriched es, h, m, hm => by
    simp only [entityPerms, bind_ok] at hm
    obtain ⟨ms, hms, _⟩ := hm
    exact blockedL es h ms hms
  | .hdiv w, h, m, hm => blocked w h m (by simpa [entityPerms] using hm)
  | .hcurl w, h, m, hm => blocked w h m (by simpa [entityPerms] using hm)
  | .discontinuous e, h, m, hm =>
    blocked e h m (C72_discontinuous_delegates F fiat subs e m hm)
  | .mixedSub _ _ _, _, _, hm => by simp [entityPerms] at hm
  | .tensorFE _ _ _, _, _, hm => by simp [entityPerms] at hm
  | .quadrature _ _ _, _, _, hm => by simp [entityPerms] at hm
theorem blockedL {F : FiatPerms} {fiat : Leaf → EntityDofs} {subs : Cell → EntityMap (List (Dim × Nat))} :
    ∀ es : List Elem, BlocksL es → ∀ ms, entityPermsL F fiat subs es ≠ .ok ms
  | [], h, _, _ => by simp [BlocksL] at h
  | e :: es, h, ms, hm => by
    simp only [entityPermsL, bind_ok] at hm
    obtain ⟨m, hm, ms', hms, _⟩ := hm
    rcases h with h | h
    · exact blocked e h m hm
    · exact blockedL es h ms' hms
end

/-- **C72**, elements without permutations: no table is returned for a tree in which a part of a mixed element, a tensor-valued element or a
quadrature element occurs, e.g. any vector-valued element or any product with a quadrature element. -/
theorem C72_unsupported (F : FiatPerms) (fiat : Leaf → EntityDofs) (subs : Cell → EntityMap (List (Dim × Nat)))
    (e : Elem) (h : Blocks e) : ∀ m, entityPerms F fiat subs e ≠ .ok m :=
  blocked e h

/-! ### Examples -/

namespace PermExample

/-- Linear discontinuous Lagrange on the interval. -/
def dg1 : Leaf where
  id := 3
  kind := .dg
  cell := .simplex 1
  formdegree := some 1
  valueShape := []
  mapping := some .affine
  degree := 1
  fns := [0, 1]
  dofs := [(.int 0, [(0, []), (1, [])]), (.int 1, [(0, [0, 1])])]

/-- FIAT's tables for the interval: one orientation of a vertex, two of the edge. -/
def table (v e r : List Nat) : PermMap :=
  [(.int 0, [(0, [(.int 0, v)]), (1, [(.int 0, v)])]), (.int 1, [(0, [(.int 0, e), (.int 1, r)])])]

/-- The tables of the three elements; axes of equal length are exchanged on entities of dimension `(1, 1)`. -/
def F : FiatPerms where
  leaf l := if l.id = 3 then .ok (table [] [0, 1] [1, 0]) else if l.id = 1 then .ok (table [0] [0] [0])
    else if l.id = 2 then .ok (table [] [0] [0]) else .error .notImplemented
  axes _ dims shape := match dims, shape with
    | [.int 1, .int 1], [a, b] => if a = b then [(0, [0, 1]), (1, [1, 0])] else [(0, [0, 1])]
    | _, shape => [(0, List.range shape.length)]
  flat dim o := match dim, o with
    | .tup ds, .tup (.int eo :: os) => .int ((ds.zip os).foldl (fun a p => 2 ^ p.1.total * a + p.2.total) eo)
    | _, o => o

theorem axes_ok : AxesOK F := by
  intro cells dims shape
  simp only [F]
  split
  · rename_i a b
    split
    · rename_i h
      subst h
      refine ⟨by decide, fun ax hax => ?_⟩
      simp only [List.mem_cons, List.not_mem_nil, or_false] at hax
      rcases hax with rfl | rfl
      · exact ⟨by simp [List.range_succ], fun k hk => by
          match k, hk with
          | 0, _ => rfl
          | 1, _ => rfl⟩
      · exact ⟨List.Perm.swap 0 1 [], fun k hk => by
          match k, hk with
          | 0, _ => rfl
          | 1, _ => rfl⟩
    · refine ⟨by decide, fun ax hax => ?_⟩
      simp only [List.mem_cons, List.not_mem_nil, or_false] at hax
      subst hax
      exact ⟨by simp [List.range_succ], fun k hk => by
          match k, hk with
          | 0, _ => rfl
          | 1, _ => rfl⟩
  · refine ⟨by simp, fun ax hax => ?_⟩
    simp only [List.mem_cons, List.not_mem_nil, or_false] at hax
    subst hax
    exact ⟨List.Perm.refl _, fun k hk => by simp [hk]⟩

theorem topology1 : (Cell.simplex 1).topology = [(.int 0, 2), (.int 1, 1)] := by decide

theorem good_dg1 : GoodLeaf dg1 := by
  refine ⟨⟨by decide, ?_⟩, by decide⟩
  simp only [dg1, topology1]
  simp only [List.mem_cons, List.not_mem_nil, or_false, forall_eq_or_imp, forall_eq]
  exact ⟨⟨_, .inl rfl, by decide⟩, ⟨_, .inr rfl, by decide⟩⟩

/-- A table of the interval fits dofs with as many entries. -/
theorem table_fits {d : EntityDofs} {v e r : List Nat}
    (hv : ∀ k < 2, v.Perm (List.range (dofsOn d (.int 0) k).length))
    (he : e.Perm (List.range (dofsOn d (.int 1) 0).length)) (hr : r.Perm (List.range (dofsOn d (.int 1) 0).length)) :
    PermsFit (Cell.simplex 1).topology d (table v e r) := by
  rw [topology1]
  refine ⟨⟨by simp [table], ?_⟩, ?_⟩
  · simp only [List.mem_cons, List.not_mem_nil, or_false, forall_eq_or_imp, forall_eq]
    refine ⟨⟨_, List.mem_cons_self, by simp [List.range_succ], ?_⟩,
      ⟨_, List.mem_cons_of_mem _ List.mem_cons_self, by simp [List.range_succ], ?_⟩⟩ <;>
    · intro q hq
      simp only [List.mem_cons, List.not_mem_nil, or_false] at hq
      rcases hq with rfl | rfl <;> simp [Dict.keys]
  · intro dim n hd k hk o p hp
    simp only [List.mem_cons, List.not_mem_nil, or_false, Prod.mk.injEq] at hd
    rcases hd with ⟨rfl, rfl⟩ | ⟨rfl, rfl⟩
    · have : p = v := by
        rw [permOn_eq] at hp
        match k, hk with
        | 0, _ =>
          have := Dict.mem_of_get?_eq_some hp
          rw [show orients (table v e r) (.int 0) 0 = [(.int 0, v)] from rfl] at this
          simp only [List.mem_cons, List.not_mem_nil, or_false, Prod.mk.injEq] at this
          exact this.2
        | 1, _ =>
          have := Dict.mem_of_get?_eq_some hp
          rw [show orients (table v e r) (.int 0) 1 = [(.int 0, v)] from rfl] at this
          simp only [List.mem_cons, List.not_mem_nil, or_false, Prod.mk.injEq] at this
          exact this.2
      rw [this]
      exact hv k hk
    · match k, hk with
      | 0, _ =>
        rw [permOn_eq] at hp
        have := Dict.mem_of_get?_eq_some hp
        rw [show orients (table v e r) (.int 1) 0 = [(.int 0, e), (.int 1, r)] from rfl] at this
        simp only [List.mem_cons, List.not_mem_nil, or_false, Prod.mk.injEq] at this
        rcases this with ⟨_, rfl⟩ | ⟨_, rfl⟩
        · exact he
        · exact hr

theorem given_dg1 (fiat : Leaf → EntityDofs) (subs : Cell → EntityMap (List (Dim × Nat))) :
    PermsGiven F fiat subs (.leaf dg1) := by
  intro m hm
  cases hm
  exact table_fits (by decide) (by decide) (by decide)

theorem given_cg2 (fiat : Leaf → EntityDofs) (subs : Cell → EntityMap (List (Dim × Nat))) :
    PermsGiven F fiat subs (.leaf cg2) := by
  intro m hm
  cases hm
  exact table_fits (by decide) (by decide) (by decide)

/-- The product of the docstring. -/
def dq1 : Elem := .tensorProduct [.leaf dg1, .leaf dg1]

theorem good_dq1 : GoodL [.leaf dg1, .leaf dg1] := ⟨good_dg1, good_dg1, trivial⟩

theorem given_dq1 (fiat : Leaf → EntityDofs) (subs : Cell → EntityMap (List (Dim × Nat))) :
    PermsGivenL F fiat subs [.leaf dg1, .leaf dg1] := ⟨given_dg1 fiat subs, given_dg1 fiat subs, trivial⟩

/-- The table printed in the documentation of `compose_permutations` (`finat/tensor_product.py` 262-284). -/
example : ∃ m, entityPerms F (fun l => l.dofs) (fun _ => []) dq1 = .ok m ∧
    orients m (.tup [.int 1, .int 1]) 0 =
      [(.tup [.int 0, .int 0, .int 0], [0, 1, 2, 3]), (.tup [.int 0, .int 0, .int 1], [1, 0, 3, 2]),
       (.tup [.int 0, .int 1, .int 0], [2, 3, 0, 1]), (.tup [.int 0, .int 1, .int 1], [3, 2, 1, 0]),
       (.tup [.int 1, .int 0, .int 0], [0, 2, 1, 3]), (.tup [.int 1, .int 0, .int 1], [2, 0, 3, 1]),
       (.tup [.int 1, .int 1, .int 0], [1, 3, 0, 2]), (.tup [.int 1, .int 1, .int 1], [3, 1, 2, 0])] := by
  refine ⟨_, rfl, ?_⟩
  decide +kernel

/-- Non-vacuity of the theorems on products. -/
example : ∃ m, entityPerms F (fun l => l.dofs) (fun _ => []) dq1 = .ok m ∧ ∃ d, dq1.entityDofs = .ok d ∧
    PermsFit (Cell.prod [.simplex 1, .simplex 1]).topology d m := by
  obtain ⟨m, hm⟩ := C72_defined F (fun l => l.dofs) (fun _ => []) axes_ok dq1 _ good_dq1 (given_dq1 _ _) rfl
    ⟨⟨_, rfl⟩, ⟨_, rfl⟩, trivial⟩
  exact ⟨m, hm, C72_permutations F _ _ axes_ok dq1 _ good_dq1 (given_dq1 _ _) rfl m hm⟩

/-- The flattened product numbers the orientations; `Q2` has one dof on every edge and in the interior. -/
example : ∃ m, entityPerms F (fun l => l.dofs) (fun _ => []) (.flattened dq1) = .ok m ∧
    permOn m (.int 2) 0 (.int 5) = some [2, 0, 3, 1] ∧ permOn m (.int 1) 3 (.int 1) = some [] := by
  refine ⟨_, rfl, ?_⟩
  decide +kernel

example : ∃ m, entityPerms F (fun l => l.dofs) (fun _ => []) q2 = .ok m ∧
    permOn m (.int 2) 0 (.int 7) = some [0] ∧ permOn m (.int 0) 3 (.int 0) = some [0] := by
  refine ⟨_, rfl, ?_⟩
  decide +kernel

/-- A discontinuous version of the product of discontinuous elements has its permutations. A discontinuous version of the quadratic element raises, and so
does every vector-valued element. -/
example : (∃ m, entityPerms F (fun l => l.dofs) (fun _ => intervalSubs) (.discontinuous (.leaf dg1)) = .ok m ∧
      permOn m (.int 1) 0 (.int 1) = some [1, 0]) ∧
    entityPerms F (fun l => l.dofs) (fun _ => intervalSubs) (.discontinuous (.leaf cg2)) = .error .notImplemented ∧
    ∀ m, entityPerms F (fun l => l.dofs) (fun _ => []) (.tensorFE dq1 [2] false) ≠ .ok m := by
  refine ⟨⟨_, rfl, by decide +kernel⟩, rfl, C72_unsupported _ _ _ _ trivial⟩

/-- The sub-entities of an interval. -/
theorem interval_ok : InteriorOK intervalSubs (.simplex 1) ∧ ProperSubs intervalSubs (.simplex 1) := by
  have ht : (Cell.simplex 1).topology = [(.int 0, 2), (.int 1, 1)] := by decide
  refine ⟨⟨⟨by decide, ?_⟩, _, _, rfl, rfl, ?_⟩, by decide, ?_, ?_⟩
  · rw [ht]
    intro p hp
    simp only [intervalSubs, List.mem_cons, List.not_mem_nil, or_false] at hp
    rcases hp with rfl | rfl
    · refine ⟨by decide, ?_⟩
      simp
    · refine ⟨by decide, ?_⟩
      simp only [List.mem_singleton, forall_eq]
      refine ⟨by decide, fun x hx => ?_⟩
      simp only [List.mem_cons, List.not_mem_nil, or_false] at hx
      rcases hx with rfl | rfl | rfl
      · exact ⟨2, by decide, by decide⟩
      · exact ⟨2, by decide, by decide⟩
      · exact ⟨1, by decide, by decide⟩
  · rw [ht]
    intro dim n h k hk
    simp only [List.mem_cons, Prod.mk.injEq, List.not_mem_nil, or_false] at h
    rcases h with ⟨rfl, rfl⟩ | ⟨rfl, rfl⟩
    · have : k = 0 ∨ k = 1 := by omega
      rcases this with rfl | rfl <;> decide
    · have : k = 0 := by omega
      subst this; decide
  · rw [ht]
    intro p hp
    simp only [List.mem_cons, List.not_mem_nil, or_false] at hp
    rcases hp with rfl | rfl
    · exact ⟨_, List.mem_cons_self, by decide⟩
    · exact ⟨_, List.mem_cons_of_mem _ List.mem_cons_self, by decide⟩
  · intro dim ents k l h1 h2 h3
    have hm := Dict.mem_of_get?_eq_some h1
    have hm2 := Dict.mem_of_get?_eq_some h2
    simp only [intervalSubs, List.mem_cons, Prod.mk.injEq, List.not_mem_nil, or_false] at hm
    rcases hm with ⟨rfl, rfl⟩ | ⟨rfl, rfl⟩
    · simp only [List.mem_cons, Prod.mk.injEq, List.not_mem_nil, or_false] at hm2
      rcases hm2 with ⟨rfl, rfl⟩ | ⟨rfl, rfl⟩ <;> simp [Cell.dimension] at h3
    · simp only [List.mem_cons, Prod.mk.injEq, List.not_mem_nil, or_false] at hm2
      obtain ⟨rfl, rfl⟩ := hm2
      rfl

example : entityPerms F (fun l => l.dofs) (fun _ => intervalSubs) (.discontinuous (.leaf dg1)) =
    entityPerms F (fun l => l.dofs) (fun _ => intervalSubs) (.leaf dg1) :=
  C72_discontinuous_interior F _ _ (.leaf dg1) _ good_dg1 rfl (fun _ _ => rfl) interval_ok.1 interval_ok.2 _ rfl rfl

/-- Why the parts of an enriched element must have the same orientations: the parts `DG0 x DG1` and `DG1 x DG0` have no exchange of axes in this table, the part
`DG1 x DG1` has one. The enriched element has 8 dofs in the interior but lists only 4 numbers for the exchange of axes. -/
example : ∃ m d, entityPerms F (fun l => l.dofs) (fun _ => [])
      (.enriched [dq1, .tensorProduct [.leaf dg0, .leaf dg1], .tensorProduct [.leaf dg1, .leaf dg0]]) = .ok m ∧
    (Elem.enriched [dq1, .tensorProduct [.leaf dg0, .leaf dg1],
      .tensorProduct [.leaf dg1, .leaf dg0]]).entityDofs = .ok d ∧
    (dofsOn d (.tup [.int 1, .int 1]) 0).length = 8 ∧
    permOn m (.tup [.int 1, .int 1]) 0 (.tup [.int 0, .int 1, .int 0]) = some [2, 3, 0, 1, 4, 5, 7, 6] ∧
    permOn m (.tup [.int 1, .int 1]) 0 (.tup [.int 1, .int 1, .int 0]) = some [1, 3, 0, 2] := by
  refine ⟨_, _, rfl, rfl, ?_⟩
  decide +kernel

end PermExample

end FInAT.Props
