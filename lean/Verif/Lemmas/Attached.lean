import Verif.Spec.Restrict
import Verif.Lemmas.DofProps

/-! # Basis functions with their entities, by element type -/

namespace FInAT

open Spec

variable {K : Type} [CommRing K]

theorem mem_entities {c : Cell} {E : Dim × Nat} :
    E ∈ entities c ↔ ∃ n, (E.1, n) ∈ c.topology ∧ E.2 < n := by
  unfold entities
  rw [List.mem_flatMap]
  constructor
  · rintro ⟨p, hp, hx⟩
    obtain ⟨e, he, rfl⟩ := List.mem_map.1 hx
    exact ⟨p.2, hp, List.mem_range.1 he⟩
  · rintro ⟨n, hn, hx⟩
    exact ⟨(E.1, n), hn, List.mem_map.2 ⟨E.2, List.mem_range.2 hx, rfl⟩⟩

theorem entities_perm (c : Cell) : (entities c).Perm (entList c.topology) := by
  unfold entities entList
  exact (sortBy_perm _ _).symm.flatMap_right _

theorem entities_nodup (c : Cell) : (entities c).Nodup :=
  (entities_perm c).nodup_iff.2 (entList_nodup c.topology_nodup)

theorem attached_eq {φ : LeafVals K} {e : Elem} {c : Cell} {d : EntityDofs} (hc : e.cell = .ok c)
    (hd : e.entityDofs = .ok d) : attached φ e =
      (entities c).flatMap fun E => (dofsOn d E.1 E.2).map fun k => (E, fnOf φ e k) := by
  unfold attached
  rw [hc, hd]

theorem attached_nil {φ : LeafVals K} {e : Elem} {err : Err} (hc : e.cell = .error err) :
    attached φ e = [] := by
  unfold attached
  rw [hc]

theorem mem_attached {φ : LeafVals K} {e : Elem} {c : Cell} (hc : e.cell = .ok c)
    {x : (Dim × Nat) × BFun K} (hx : x ∈ attached φ e) : x.1 ∈ entities c := by
  unfold attached at hx
  rw [hc] at hx
  split at hx
  · rename_i c' d h1 h2
    cases h1
    obtain ⟨E, hE, hx⟩ := List.mem_flatMap.1 hx
    obtain ⟨k, _, rfl⟩ := List.mem_map.1 hx
    exact hE
  · simp at hx

theorem total_of_mem_entities {c : Cell} {E : Dim × Nat} (h : E ∈ entities c) :
    E.1.total ≤ c.spatialDim := by
  obtain ⟨n, hn, _⟩ := mem_entities.1 h
  exact (c.total_le _ _ hn).1

/-! ### dofs are on entities, within bounds -/

theorem dofsOn_lt {d : EntityDofs} {n : Nat} (hp : Partition d n)
    {dim : Dim} {k v : Nat} (hv : v ∈ dofsOn d dim k) : v < n := by
  refine List.mem_range.1 (hp.mem_iff.1 ?_)
  unfold dofsOn at hv
  cases h1 : d.get? dim with
  | none => simp [h1] at hv
  | some ents =>
    simp only [h1, Option.bind_some] at hv
    cases h2 : ents.get? k with
    | none => simp [h2] at hv
    | some l =>
      simp only [h2, Option.getD_some] at hv
      exact List.mem_flatMap.2 ⟨_, Dict.mem_of_get?_eq_some h1,
        List.mem_flatMap.2 ⟨_, Dict.mem_of_get?_eq_some h2, hv⟩⟩

/-! ### enriched -/

theorem shiftedConcat_ge : ∀ (l : List (Nat × List Nat)) (off : Nat), ∀ k ∈ shiftedConcat off l, off ≤ k
  | [], _, k, h => by simp [shiftedConcat] at h
  | (n, b) :: l, off, k, h => by
    simp only [shiftedConcat, List.mem_append, List.mem_map] at h
    rcases h with ⟨a, _, rfl⟩ | h
    · omega
    · have := shiftedConcat_ge l (off + n) k h; omega

theorem shiftedConcat_fns (φ : LeafVals K) (E : Dim × Nat) :
    ∀ (es : List Elem) (ds : List EntityDofs) (off : Nat), es.length = ds.length →
    (∀ p ∈ es.zip ds, ∀ v ∈ dofsOn p.2 E.1 E.2, v < p.1.spaceDim) →
    ((shiftedConcat off ((es.zip ds).map fun p => (p.1.spaceDim, dofsOn p.2 E.1 E.2))).map fun k =>
      (E, (fun α en x z => sumValue φ es α en x (k - off) z : BFun K))) =
    (es.zip ds).flatMap fun p => (dofsOn p.2 E.1 E.2).map fun k => (E, fnOf φ p.1 k)
  | [], ds, off, _, _ => by simp [shiftedConcat]
  | e :: es, [], off, hl, _ => by simp at hl
  | e :: es, d :: ds, off, hl, hb => by
    have ih := shiftedConcat_fns φ E es ds (off + e.spaceDim) (by simpa using hl)
      (fun p hp => hb p (by simp [hp]))
    simp only [List.zip_cons_cons, List.map_cons, shiftedConcat, List.map_append, List.map_map,
      List.flatMap_cons]
    congr 1
    · apply List.map_congr_left
      intro v hv
      have hlt : v < e.spaceDim := hb (e, d) (by simp) v hv
      simp only [Function.comp_def]
      congr 1
      funext α en x z
      rw [show off + v - off = v by omega, sumValue, if_pos hlt]
      rfl
    · rw [← ih]
      apply List.map_congr_left
      intro k hk
      have hge := shiftedConcat_ge _ _ _ hk
      congr 1
      funext α en x z
      rw [sumValue, if_neg (by omega)]
      congr 1
      omega

theorem attached_enriched (φ : LeafVals K) {es : List Elem} {c : Cell} (hf : ∀ e ∈ es, DofsOK e)
    (hc : (Elem.enriched es).cell = .ok c) :
    (attached φ (.enriched es)).Perm (es.flatMap (attached φ)) := by
  obtain ⟨hne, cs, hcs, hu, hcell⟩ := enriched_cells hc
  -- the dictionaries
  have hds : ∃ ds, Elem.entityDofsL es = .ok ds ∧ es.length = ds.length ∧
      (∀ p ∈ es.zip ds, p.1.entityDofs = .ok p.2 ∧ Covers p.2 c.topology ∧ Partition p.2 p.1.spaceDim) ∧
      Elem.spaceDimL es = (es.zip ds).map (fun p => p.1.spaceDim) ∧ (es.zip ds).map Prod.fst = es ∧
      (es.zip ds).map Prod.snd = ds := by
    clear hc hne hcs hu
    induction es with
    | nil => exact ⟨[], rfl, rfl, by simp, rfl, rfl, rfl⟩
    | cons e es ih =>
      obtain ⟨ds, h1, h2, h3, h4, h5, h6⟩ := ih (fun g hg => hf g (by simp [hg]))
        (fun g hg => hcell g (by simp [hg]))
      obtain ⟨d, hd, hcov, hpart⟩ := hf e (by simp) c (hcell e (by simp))
      refine ⟨d :: ds, by simp [Elem.entityDofsL, hd, h1, bind, Except.bind, pure, Except.pure],
        by simp [h2], ?_, by simp [Elem.spaceDimL, h4], by simp [h5], by simp [h6]⟩
      intro p hp
      rcases List.mem_cons.1 hp with rfl | hp
      · exact ⟨hd, hcov, hpart⟩
      · exact h3 p hp
  obtain ⟨ds, h1, h2, h3, h4, h5, h6⟩ := hds
  have hcat := concatenate_general c.topology_nodup ((es.zip ds).map fun p => (p.1.spaceDim, p.2)) (by
    intro x hx
    obtain ⟨p, hp, rfl⟩ := List.mem_map.1 hx
    obtain ⟨_, hcov, _⟩ := h3 p hp
    refine ⟨hcov.1.nodup_iff.2 c.topology_nodup, fun q hq => ?_⟩
    have hm : q.1 ∈ c.topology.map Prod.fst := hcov.1.mem_iff.1 (List.mem_map_of_mem hq)
    obtain ⟨t, ht, htq⟩ := List.mem_map.1 hm
    obtain ⟨ents, g1, g2, g3⟩ := Covers.get hcov c.topology_nodup ht
    have : q.2 = ents := by
      have hq' := Dict.get?_eq_some_of_mem (hcov.1.nodup_iff.2 c.topology_nodup) (k := q.1) (v := q.2) hq
      rw [← htq, g1] at hq'
      exact (Option.some.inj hq').symm
    rw [this]
    refine ⟨g3.nodup_iff.2 List.nodup_range, t.2, by rw [← htq]; exact ht, fun r hr => ?_⟩
    exact List.mem_range.1 (g3.mem_iff.1 (List.mem_map_of_mem hr)))
  simp only [List.map_map, Function.comp_def] at hcat
  have hd : (Elem.enriched es).entityDofs = concatenateEntityDofs c.topology
      ((es.zip ds).map fun x => x.1.spaceDim) ((es.zip ds).map fun x => x.2) := by
    simp only [Elem.entityDofs, hcs, hu, h1, bind, Except.bind]
    rw [h4]
    congr 1
    exact h6.symm
  rw [hcat] at hd
  rw [attached_eq hc hd]
  have hE : ∀ E ∈ entities c, (dofsOn (build c.topology fun dim e =>
        shiftedConcat 0 ((es.zip ds).map fun x => (x.1.spaceDim, dofsOn x.2 dim e))) E.1 E.2).map
        (fun k => (E, fnOf φ (.enriched es) k)) =
      (es.zip ds).flatMap fun p => (dofsOn p.2 E.1 E.2).map fun k => (E, fnOf φ p.1 k) := by
    intro E hE
    obtain ⟨n, hn, hlt⟩ := mem_entities.1 hE
    rw [build_dofsOn c.topology_nodup _ hn hlt, ← shiftedConcat_fns φ E es ds 0 h2 (by
      intro p hp v hv
      exact dofsOn_lt (h3 p hp).2.2 hv)]
    apply List.map_congr_left
    intro k _
    congr 1
    funext α en x z
    simp [fnOf, basisValue, Elem.indexShape, unravel]
  rw [List.flatMap_congr hE]
  refine (flatMap_swap_perm _ _ _).trans (.of_eq ?_)
  conv_rhs => rw [← h5, List.flatMap_map]
  apply List.flatMap_congr
  intro p hp
  have hpe : p.1 ∈ es := (List.of_mem_zip hp).1
  rw [attached_eq (hcell p.1 hpe) (h3 p hp).1]

theorem attached_parts (φ : LeafVals K) {e : Elem} {c : Cell} (hg : Good e) (hc : e.cell = .ok c) :
    (attached φ e).Perm ((enrichedParts e).flatMap (attached φ)) := by
  cases e with
  | enriched es => exact attached_enriched φ (dofsOKL es hg) hc
  | _ => simp [enrichedParts]

/-! ### tensor products -/

theorem product_three {γ β : Type _} (fs : List γ) (top : γ → List (Dim × Nat))
    (X : γ → Dim → Nat → List β) :
    (product (fs.map fun f => (top f).flatMap fun p => (List.range p.2).flatMap fun e => X f p.1 e)).Perm
      ((product (fs.map top)).flatMap fun ps => (ndindex (ps.map Prod.snd)).flatMap fun ei =>
        product ((fs.zip ((ps.map Prod.fst).zip ei)).map fun q => X q.1 q.2.1 q.2.2)) := by
  have s2 := product_flatten (fs.map fun f => (top f).map fun p =>
    ((List.range p.2).map fun e => X f p.1 e).flatten)
  rw [List.map_map] at s2
  have e1 : (fs.map fun f => (top f).flatMap fun p => (List.range p.2).flatMap fun e => X f p.1 e) =
      fs.map (List.flatten ∘ fun f => (top f).map fun p => ((List.range p.2).map fun e => X f p.1 e).flatten) := by
    apply List.map_congr_left
    intro f _
    simp [List.flatMap_def]
  rw [e1]
  refine s2.trans ?_
  rw [product_map_fn, List.flatMap_map]
  refine List.Perm.flatMap_left _ fun ps hps => ?_
  have hlen : ps.length = fs.length := by simpa using length_of_mem_product hps
  have s3 := product_flatten (List.zipWith (fun f (p : Dim × Nat) =>
      (List.range p.2).map fun e => X f p.1 e) fs ps)
  rw [List.map_zipWith] at s3
  refine s3.trans (.of_eq ?_)
  have s4 : product (List.zipWith (fun f (p : Dim × Nat) => (List.range p.2).map fun e => X f p.1 e) fs ps) =
      (ndindex (ps.map Prod.snd)).map fun ei =>
        (fs.zip ((ps.map Prod.fst).zip ei)).map fun q => X q.1 q.2.1 q.2.2 := by
    clear s2 e1 hps s3
    induction fs generalizing ps with
    | nil => cases ps with
      | nil => rfl
      | cons => simp at hlen
    | cons f fs ih => cases ps with
      | nil => simp at hlen
      | cons p ps =>
        have := ih ps (by simpa using hlen)
        simp only [List.zipWith_cons_cons, product_cons, this, List.map_cons, ndindex, List.flatMap_map,
          List.map_flatMap, List.map_map]
        simp only [Function.comp_def, List.zip_cons_cons, List.map_cons]
  rw [s4, List.flatMap_map]

/-- Product of functions of the factors. -/
def prodFn : List ((Nat × Nat) × BFun K) → List Nat → List (Dim × Nat) → List K → List Nat → K
  | [], _, _, _, _ => 1
  | _ :: _, _, [], _, _ => 0
  | ((sd, vl), g) :: r, α, E :: Es, x, z =>
    g (α.take sd) E (x.take E.1.total) (z.take vl) *
      prodFn r (α.drop sd) Es (x.drop E.1.total) (z.drop vl)

/-- The entity of the product cell made up of entities of the factors. -/
def combineEnt (cs : List Cell) (Es : List (Dim × Nat)) : Dim × Nat :=
  (.tup (Es.map Prod.fst),
    ravel (List.zipWith (fun c dim => (Dict.get? (Cell.topology c) dim).getD 0) cs (Es.map Prod.fst))
      (Es.map Prod.snd))

/-- The factor entities of an entity of the product cell. -/
def splitEnt (cs : List Cell) (en : Dim × Nat) : List (Dim × Nat) :=
  match factorEntity cs (some en) with
  | .ok es => es
  | .error _ => []

/-- Function of the product element made up of functions of the factors, with its entity. -/
def combine (cs : List Cell) (ms : List (Nat × Nat)) (t : List ((Dim × Nat) × BFun K)) :
    (Dim × Nat) × BFun K :=
  (combineEnt cs (t.map Prod.fst),
    fun α en x z => prodFn (ms.zip (t.map Prod.snd)) α (splitEnt cs en) x z)

theorem prodFn_eq (φ : LeafVals K) : ∀ (fs : List Elem) (ks : List Nat), fs.length = ks.length →
    ∀ (α : List Nat) (Es : List (Dim × Nat)) (x : List K) (z : List Nat),
    prodValue φ fs α Es x (List.zipWith (fun f k => unravel f.indexShape k) fs ks).flatten z =
      prodFn ((fs.map fun f => (sdim f, (vshape f).length)).zip (List.zipWith (fun f k => fnOf φ f k) fs ks))
        α Es x z
  | [], ks, _, α, Es, x, z => by simp [prodValue, prodFn]
  | f :: fs, [], h, _, _, _, _ => by simp at h
  | f :: fs, k :: ks, h, α, [], x, z => by simp [prodValue, prodFn]
  | f :: fs, k :: ks, h, α, E :: Es, x, z => by
    have ih := prodFn_eq φ fs ks (by simpa using h)
    have hlen : (unravel f.indexShape k).length = f.indexShape.length := by
      have : ∀ (s : List Nat) (k : Nat), (unravel s k).length = s.length := by
        intro s
        induction s with
        | nil => intro k; rfl
        | cons n s ih => intro k; simp [unravel, ih]
      exact this _ _
    simp only [List.zipWith_cons_cons, List.flatten_cons, prodValue, List.map_cons, List.zip_cons_cons, prodFn]
    rw [← hlen, List.take_left, List.drop_left, ih]
    rfl

theorem unravel_flatten : ∀ (fs : List Elem) (ks : List Nat),
    List.Forall₂ (fun k n => k < n) ks (Elem.spaceDimL fs) →
    unravel (Elem.indexShapeL fs).flatten (ravel (Elem.spaceDimL fs) ks) =
      (List.zipWith (fun f k => unravel f.indexShape k) fs ks).flatten := by
  intro fs ks h
  have key : List.Forall₂ (fun i n => i < n) (List.zipWith (fun (f : Elem) k => unravel f.indexShape k) fs ks).flatten
      (Elem.indexShapeL fs).flatten ∧
      ravel (Elem.indexShapeL fs).flatten (List.zipWith (fun (f : Elem) k => unravel f.indexShape k) fs ks).flatten =
        ravel (Elem.spaceDimL fs) ks := by
    induction fs generalizing ks with
    | nil => simp only [Elem.spaceDimL] at h; cases h; simp [Elem.indexShapeL]
    | cons f fs ih =>
      simp only [Elem.spaceDimL] at h
      cases h with
      | cons hk hks =>
        rename_i k ks
        obtain ⟨i1, i2⟩ := ih _ hks
        rw [← f.indexShape_prod] at hk
        have hb := unravel_bounds hk
        simp only [List.zipWith_cons_cons, List.flatten_cons, Elem.indexShapeL, Elem.spaceDimL]
        refine ⟨List.rel_append hb i1, ?_⟩
        rw [ravel_append hb.length_eq, ravel_unravel hk, i2, ravel_cons, Elem.indexShapeL_prod]
  rw [← key.2, unravel_ravel key.1]

/-- The basis functions of a tensor product element are the products of functions of its factors. -/
theorem attached_tensorProduct (φ : LeafVals K) {fs : List Elem} {cs : List Cell}
    (hf : ∀ f ∈ fs, DofsOK f) (hcs : Elem.cellL fs = .ok cs) :
    (attached φ (.tensorProduct fs)).Perm
      ((product (fs.map (attached φ))).map
        (combine cs (fs.map fun f => (sdim f, (vshape f).length)))) := by
  obtain ⟨ps, h1, h2, h3, h4, h5, h6⟩ := tensor_data hf hcs
  clear h6
  have hc : (Elem.tensorProduct fs).cell = .ok (.prod cs) := by
    simp [Elem.cell, hcs, bind, Except.bind, pure, Except.pure]
  have hd : (Elem.tensorProduct fs).entityDofs = productise (ps.map (·.n))
      (ps.map fun f => f.top.map Prod.fst) (ps.map (·.d)) := by
    simp only [Elem.entityDofs, hcs, h1, h2, h4, bind, Except.bind]
  rw [productise_eq (fun p hp => (h5 p hp).1)] at hd
  rw [attached_eq hc hd]
  have hfd : List.Forall₂ (fun (f : Elem) (p : PFactor) => ∃ c ∈ cs, f.cell = .ok c ∧ f.entityDofs = .ok p.d ∧
      p.top = c.topology ∧ f.spaceDim = p.n) fs ps := by
    have hcm := cellL_mem hcs
    clear hd hc h4 h5 hf
    induction hcm generalizing ps with
    | nil =>
      simp only [Elem.spaceDimL] at h2
      have := List.map_eq_nil_iff.1 h2.symm
      subst this
      exact .nil
    | @cons f c fs cs hfc _ ih =>
      cases ps with
      | nil => simp [Elem.spaceDimL] at h2
      | cons p ps =>
        simp only [Elem.spaceDimL, List.map_cons, List.cons.injEq] at h2
        simp only [Cell.topologyL, List.map_cons, List.cons.injEq] at h3
        simp only [Elem.entityDofsL, bind_ok, pure, Except.pure, Except.ok.injEq, List.map_cons,
          List.cons.injEq] at h1
        obtain ⟨d, hd, ds, hds, rfl, rfl⟩ := h1
        have hcs' : Elem.cellL fs = .ok cs := by
          simp only [Elem.cellL, bind_ok, pure, Except.pure, Except.ok.injEq, List.cons.injEq] at hcs
          obtain ⟨_, _, _, h, _, rfl⟩ := hcs
          exact h
        refine .cons ⟨c, by simp, hfc, hd, h3.1.symm, h2.1⟩ ?_
        refine List.Forall₂.imp ?_ (ih hcs' ps hds h2.2 h3.2)
        rintro a b ⟨c', hc', h⟩
        exact ⟨c', by simp [hc'], h⟩
  -- the factor lists
  have hat : fs.map (attached φ) = (fs.zip ps).map fun q => q.2.top.flatMap fun p =>
      (List.range p.2).flatMap fun e => (dofsOn q.2.d p.1 e).map fun k => ((p.1, e), fnOf φ q.1 k) := by
    clear hd hc h1 h2 h3 h4 h5 hcs hf
    induction hfd with
    | nil => rfl
    | cons h _ ih =>
      obtain ⟨c, _, hc, hd, ht, _⟩ := h
      simp only [List.map_cons, List.zip_cons_cons, ih]
      congr 1
      rw [attached_eq hc hd, ht, entities, List.flatMap_assoc]
      simp only [List.flatMap_map]
  rw [hat]
  have hthree := product_three (fs.zip ps) (fun q => q.2.top)
    (fun q D e => (dofsOn q.2.d D e).map fun k => ((D, e), fnOf φ q.1 k))
  refine List.Perm.trans (.of_eq ?_) (hthree.map _).symm
  -- both sides entity by entity
  have htop : (fs.zip ps).map (fun q => q.2.top) = ps.map (·.top) := by
    have : ((fs.zip ps).map Prod.snd).map (·.top) = ps.map (·.top) := by
      rw [List.map_snd_zip (by rw [hfd.length_eq])]
    rwa [List.map_map] at this
  rw [htop]
  unfold entities
  simp only [Cell.topology, h3, Cell.prodTop, List.flatMap_map, List.flatMap_assoc, List.map_flatMap]
  apply List.flatMap_congr
  intro tp htp
  have hlen1 : tp.length = ps.length := by simpa using length_of_mem_product htp
  rw [ndindex_eq_map_unravel, List.flatMap_map]
  apply List.flatMap_congr
  intro k hk
  have hk' : k < (tp.map Prod.snd).prod := List.mem_range.1 hk
  have hei := unravel_bounds hk'
  generalize hEI : unravel (tp.map Prod.snd) k = ei at hei
  have hkr : k = ravel (tp.map Prod.snd) ei := by rw [← hEI, ravel_unravel hk']
  rw [hkr, dofsOn_productise (fun p hp => (h5 p hp).1) htp hei]
  have hlen2 : ei.length = tp.length := by simpa using hei.length_eq
  rw [product_map_fn ((fs.zip ps).zip ((tp.map Prod.fst).zip ei))
    (fun q => dofsOn q.1.2.d q.2.1 q.2.2) (fun q k => ((q.2.1, q.2.2), fnOf φ q.1.1 k))]
  simp only [List.map_map]
  have hpick : pick ps tp ei = ((fs.zip ps).zip ((tp.map Prod.fst).zip ei)).map
      fun q => dofsOn q.1.2.d q.2.1 q.2.2 := by
    unfold pick
    have hl := hfd.length_eq
    clear * - hl hlen1 hlen2
    induction ps generalizing fs tp ei with
    | nil => simp
    | cons p ps ih =>
      match fs, tp, ei, hl, hlen1, hlen2 with
      | f :: fs, t :: tp, e :: ei, hl, hlen1, hlen2 =>
        simp only [List.map_cons, List.zip_cons_cons, List.zipWith_cons_cons]
        rw [ih tp (by simpa using hlen1) ei (by simpa using hlen2) (by simpa using hl)]
  rw [hpick]
  apply List.map_congr_left
  intro ks hks
  have hkl : ks.length = fs.length := by
    have := length_of_mem_product hks
    simp only [List.length_map, List.length_zip] at this
    have := hfd.length_eq
    omega
  have hkb : List.Forall₂ (fun k n => k < n) ks (Elem.spaceDimL fs) := by
    rw [h2]
    rw [← hpick] at hks
    have hm := mem_product.1 hks
    unfold pick at hm
    have hP : ∀ p ∈ ps, Partition p.d p.n := fun p hp => (h5 p hp).2
    clear * - hm hlen1 hlen2 hP
    induction ps generalizing ks tp ei with
    | nil => simp only [List.zipWith_nil_left] at hm; cases hm; exact .nil
    | cons p ps ih =>
      match tp, ei, hlen1, hlen2, hm with
      | t :: tp, e :: ei, hlen1, hlen2, hm =>
        simp only [List.map_cons, List.zip_cons_cons, List.zipWith_cons_cons] at hm
        cases hm with
        | cons h1 h2 =>
          simp only [List.map_cons]
          exact .cons (dofsOn_lt (hP p (by simp)) h1)
            (ih tp (by simpa using hlen1) ei (by simpa using hlen2) _ h2 (fun q hq => hP q (by simp [hq])))
  simp only [Function.comp_def]
  set w := List.zipWith (fun (q : (Elem × PFactor) × (Dim × Nat)) k => ((q.2.1, q.2.2), fnOf φ q.1.1 k))
    ((fs.zip ps).zip ((tp.map Prod.fst).zip ei)) ks with hw
  have hw1 : w.map Prod.fst = (tp.map Prod.fst).zip ei := by
    rw [hw]
    have hl := hfd.length_eq
    clear * - hl hlen1 hlen2 hkl
    induction fs generalizing ps tp ei ks with
    | nil =>
      have : ps = [] := List.length_eq_zero_iff.1 (by simpa using hl.symm)
      subst this
      have : tp = [] := List.length_eq_zero_iff.1 (by simpa using hlen1)
      subst this
      simp
    | cons f fs ih =>
      match ps, tp, ei, ks, hl, hlen1, hlen2, hkl with
      | p :: ps, t :: tp, e :: ei, k :: ks, hl, hlen1, hlen2, hkl =>
        simp only [List.map_cons, List.zip_cons_cons, List.zipWith_cons_cons]
        rw [ih ps tp (by simpa using hlen1) ei (by simpa using hlen2) ks (by simpa using hkl) (by simpa using hl)]
  have hw2 : w.map Prod.snd = List.zipWith (fun f k => fnOf φ f k) fs ks := by
    rw [hw]
    have hl := hfd.length_eq
    clear * - hl hlen1 hlen2 hkl
    induction fs generalizing ps tp ei ks with
    | nil => simp
    | cons f fs ih =>
      match ps, tp, ei, ks, hl, hlen1, hlen2, hkl with
      | p :: ps, t :: tp, e :: ei, k :: ks, hl, hlen1, hlen2, hkl =>
        simp only [List.map_cons, List.zip_cons_cons, List.zipWith_cons_cons]
        rw [ih ps tp (by simpa using hlen1) ei (by simpa using hlen2) ks (by simpa using hkl) (by simpa using hl)]
  unfold combine
  rw [hw1, hw2]
  refine Prod.ext ?_ ?_
  · -- the entity
    unfold combineEnt
    have hz1 : ((tp.map Prod.fst).zip ei).map Prod.fst = tp.map Prod.fst :=
      List.map_fst_zip (by simp [hlen2])
    have hz2 : ((tp.map Prod.fst).zip ei).map Prod.snd = ei := List.map_snd_zip (by simp [hlen2])
    rw [hz1, hz2]
    have hcounts : List.zipWith (fun c dim => (Dict.get? (Cell.topology c) dim).getD 0) cs (tp.map Prod.fst) =
        tp.map Prod.snd := by
      have htp' : tp ∈ product (Cell.topologyL cs) := by rw [h3]; exact htp
      clear * - htp'
      induction cs generalizing tp with
      | nil =>
        simp only [Cell.topologyL, product_nil, List.mem_singleton] at htp'
        subst htp'; rfl
      | cons c cs ih =>
        simp only [Cell.topologyL, product_cons, List.mem_flatMap, List.mem_map] at htp'
        obtain ⟨p, hp, qs, hqs, rfl⟩ := htp'
        simp only [List.map_cons, List.zipWith_cons_cons, ih _ hqs]
        rw [Dict.get?_eq_some_of_mem c.topology_nodup (k := p.1) (v := p.2) hp]
        rfl
    rw [hcounts]
  · funext α en x z
    simp only [fnOf, basisValue, Elem.indexShape]
    rw [← h2, unravel_flatten fs ks hkb, prodFn_eq φ fs ks hkl.symm]
    simp only [factorEnts, hcs, splitEnt, bind, Except.bind]
    rfl

end FInAT
