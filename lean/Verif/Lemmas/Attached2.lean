import Verif.Lemmas.Attached

/-! # Basis functions with their entities: flattened, tensor-valued and wrapped elements, leaves -/

namespace FInAT

open Spec

variable {K : Type} [CommRing K]

/-! ### tensor-valued elements -/

/-- A function times a unit tensor. -/
def timesUnit (s comp : List Nat) (f : BFun K) : BFun K := fun α en x z =>
  if comp = z.take s.length then f α en x (z.drop s.length) else 0

theorem unravel_append {s t : List Nat} {a b : Nat} (ha : a < s.prod) (hb : b < t.prod) :
    unravel (s ++ t) (a * t.prod + b) = unravel s a ++ unravel t b := by
  have h1 := unravel_bounds ha
  have h2 := unravel_bounds hb
  have h := unravel_ravel (List.rel_append h1 h2)
  rwa [ravel_append h1.length_eq, ravel_unravel ha, ravel_unravel hb] at h

theorem fnOf_tensorFE_false (φ : LeafVals K) (e : Elem) (s : List Nat) {v r : Nat} (hv : v < e.spaceDim)
    (hr : r < s.prod) :
    fnOf φ (.tensorFE e s false) (v * s.prod + r) = timesUnit s (unravel s r) (fnOf φ e v) := by
  funext α en x z
  rw [← e.indexShape_prod] at hv
  have hl := (unravel_bounds hv).length_eq
  have hl2 := (unravel_bounds hr).length_eq
  simp only [fnOf, basisValue, Elem.indexShape, Bool.false_eq_true, if_false, timesUnit]
  rw [unravel_append hv hr, ← hl, List.take_left, List.drop_left]

theorem fnOf_tensorFE_true (φ : LeafVals K) (e : Elem) (s : List Nat) {v r : Nat} (hv : v < e.spaceDim)
    (hr : r < s.prod) :
    fnOf φ (.tensorFE e s true) (r * e.spaceDim + v) = timesUnit s (unravel s r) (fnOf φ e v) := by
  funext α en x z
  rw [← e.indexShape_prod] at hv
  have hl := (unravel_bounds hv).length_eq
  have hl2 := (unravel_bounds hr).length_eq
  simp only [fnOf, basisValue, Elem.indexShape, if_true, timesUnit]
  rw [← e.indexShape_prod, unravel_append hr hv]
  conv_lhs => rw [← hl2, List.take_left, List.drop_left]
  rw [hl2]

theorem attached_tensorFE (φ : LeafVals K) {e : Elem} {c : Cell} (s : List Nat) (tr : Bool)
    (hf : DofsOK e) (hc : e.cell = .ok c) :
    (attached φ (.tensorFE e s tr)).Perm
      ((attached φ e).flatMap fun y => (ndindex s).map fun comp => (y.1, timesUnit s comp y.2)) := by
  obtain ⟨d, hd, hcov, hpart⟩ := hf c hc
  have hc' : (Elem.tensorFE e s tr).cell = .ok c := hc
  have hd' : (Elem.tensorFE e s tr).entityDofs =
      tensorFEDofs (c.topology.map Prod.fst) d s.prod e.spaceDim tr := by
    simp only [Elem.entityDofs, hd, hc, bind, Except.bind]
  rw [tensorFEDofs_eq hcov c.topology_nodup] at hd'
  rw [attached_eq hc' hd', attached_eq hc hd, List.flatMap_assoc]
  refine List.Perm.flatMap_left _ fun E hE => ?_
  obtain ⟨n, hn, hlt⟩ := mem_entities.1 hE
  rw [dofsOn_tensorFE hcov c.topology_nodup _ hn hlt]
  have hb : ∀ v ∈ dofsOn d E.1 E.2, v < e.spaceDim := fun v hv => dofsOn_lt hpart hv
  rw [List.flatMap_map]
  cases tr with
  | false =>
    rw [expand_false, List.map_flatMap]
    refine .of_eq (List.flatMap_congr fun v hv => ?_)
    rw [ndindex_eq_map_unravel, List.map_map, List.map_map]
    apply List.map_congr_left
    intro r hr
    simp only [Function.comp_def]
    rw [fnOf_tensorFE_false φ e s (hb v hv) (List.mem_range.1 hr)]
  | true =>
    rw [expand_true, List.map_flatMap]
    have h1 : ((List.range s.prod).flatMap fun r => ((dofsOn d E.1 E.2).map (r * e.spaceDim + ·)).map
        fun k => (E, fnOf φ (.tensorFE e s true) k)) =
        (List.range s.prod).flatMap fun r => (dofsOn d E.1 E.2).flatMap fun v =>
          [(E, timesUnit s (unravel s r) (fnOf φ e v))] := by
      apply List.flatMap_congr
      intro r hr
      rw [List.map_map, ← List.map_eq_flatMap]
      apply List.map_congr_left
      intro v hv
      simp only [Function.comp_def]
      rw [fnOf_tensorFE_true φ e s (hb v hv) (List.mem_range.1 hr)]
    rw [h1]
    refine (flatMap_swap_perm _ _ _).trans (.of_eq ?_)
    apply List.flatMap_congr
    intro v _
    rw [ndindex_eq_map_unravel, ← List.map_eq_flatMap, List.map_map]
    rfl

/-! ### H(div) and H(curl) wrappers -/

/-- Signed placement of a function. -/
def placed (comps : Except Err (List Comp)) (f : BFun K) : BFun K := fun α en x z =>
  wrapValue comps (f α en x) (z.headD 0)

theorem attached_hdiv (φ : LeafVals K) (w : Elem) : attached φ (.hdiv w) =
    (attached φ w).map fun y => (y.1, placed (selectHdiv w.factorsOf) y.2) := by
  unfold attached
  simp only [Elem.cell, Elem.entityDofs]
  split
  · rw [List.map_flatMap]
    simp only [List.map_map]
    rfl
  · rfl

theorem attached_hcurl (φ : LeafVals K) (w : Elem) : attached φ (.hcurl w) =
    (attached φ w).map fun y => (y.1, placed (selectHcurl w.factorsOf) y.2) := by
  unfold attached
  simp only [Elem.cell, Elem.entityDofs]
  split
  · rw [List.map_flatMap]
    simp only [List.map_map]
    rfl
  · rfl

/-! ### flattened elements -/

/-- The entity of the product cell for an entity of the flattened cell. -/
def unflat (c : Cell) (F : Dim × Nat) : Dim × Nat := match F with
  | (.int t, k) => ((computeUnflatteningMap (topDict c.topology)).get? (t, k)).getD F
  | _ => F

/-- The entity of the flattened cell for an entity of the product cell. -/
noncomputable def flat (c : Cell) (E : Dim × Nat) : Dim × Nat :=
  open Classical in
  if h : ∃ F : Dim × Nat, (∃ t, F.1 = .int t ∧ (computeUnflatteningMap (topDict c.topology)).get? (t, F.2) = some E)
  then h.choose else E

theorem flat_unflat {c : Cell} {t k : Nat} {E : Dim × Nat}
    (h : (computeUnflatteningMap (topDict c.topology)).get? (t, k) = some E) :
    flat c E = (.int t, k) := by
  have hex : ∃ F : Dim × Nat, (∃ t, F.1 = .int t ∧
      (computeUnflatteningMap (topDict c.topology)).get? (t, F.2) = some E) := ⟨(.int t, k), t, rfl, h⟩
  unfold flat
  rw [dif_pos hex]
  obtain ⟨t', h1, h2⟩ := hex.choose_spec
  have hm : E ∈ entList c.topology := by
    rw [computeUnflatteningMap_get?] at h
    exact (List.mem_filter.1 (List.mem_of_getElem? h)).1
  obtain ⟨n, hn, hlt⟩ := mem_entList.1 hm
  obtain ⟨tk, _, huniq⟩ := unflatten_bijective c.topology_nodup hn hlt
  have e1 := huniq _ h
  have e2 := huniq _ h2
  rw [← e1] at e2
  simp only [Prod.mk.injEq] at e2
  exact Prod.ext (by rw [h1, e2.1]) e2.2

theorem flattened_entities {p : Elem} {c cf : Cell} (hcube : IsCube c) (hc : p.cell = .ok c)
    (hcf : (Elem.flattened p).cell = .ok cf) :
    (∀ F ∈ entities cf, ∃ t, F.1 = .int t ∧
      (computeUnflatteningMap (topDict c.topology)).get? (t, F.2) = some (unflat c F)) ∧
    ((entities cf).map (unflat c)).Perm (entities c) := by
  have htop : Cell.flattenTop c.topology = cf.topology := by
    simp only [Elem.cell, hc, bind, Except.bind] at hcf
    exact cube_topology ((isCube_iff c).1 hcube) hcf
  have hmem : ∀ F ∈ entities cf, ∃ t, F.1 = .int t ∧
      (computeUnflatteningMap (topDict c.topology)).get? (t, F.2) = some (unflat c F) := by
    rintro ⟨D, k⟩ hF
    obtain ⟨n, hn, hlt⟩ := mem_entities.1 hF
    simp only at hn hlt
    rw [← htop, flattenTop_eq c.topology_nodup (fun D e => (D, e))] at hn
    obtain ⟨q, hq, hqe⟩ := List.mem_map.1 hn
    simp only [Prod.mk.injEq] at hqe
    obtain ⟨rfl, rfl⟩ := hqe
    refine ⟨q.1, rfl, ?_⟩
    have hq' := (sortBy_perm _ _).mem_iff.1 hq
    have hget := Dict.get?_eq_some_of_mem (groupTop_keys_nodup (sortTop c.topology) (fun D e => (D, e)))
      (k := q.1) (v := q.2) hq'
    rw [groupTop_get?] at hget
    split at hget
    · have hv := Option.some.inj hget
      rw [valsOf_eq] at hv
      have hlen : k < ((entList c.topology).filter fun x => x.1.total = q.1).length := by
        rw [← hv, List.length_map] at hlt; exact hlt
      have hs : (computeUnflatteningMap (topDict c.topology)).get? (q.1, k) =
          some (((entList c.topology).filter fun x => x.1.total = q.1)[k]) := by
        rw [computeUnflatteningMap_get?, List.getElem?_eq_getElem hlen]
      simp only [unflat, hs, Option.getD_some]
    · cases hget
  refine ⟨hmem, ?_⟩
  rw [List.perm_ext_iff_of_nodup]
  · intro E
    constructor
    · intro hE
      obtain ⟨F, hF, rfl⟩ := List.mem_map.1 hE
      obtain ⟨t, _, h⟩ := hmem F hF
      rw [computeUnflatteningMap_get?] at h
      have := (List.mem_filter.1 (List.mem_of_getElem? h)).1
      exact mem_entities.2 (mem_entList.1 this)
    · intro hE
      obtain ⟨n, hn, hlt⟩ := mem_entities.1 hE
      have hm : E ∈ (entList c.topology).filter fun x => x.1.total = E.1.total :=
        List.mem_filter.2 ⟨mem_entList.2 ⟨n, hn, hlt⟩, by simp⟩
      obtain ⟨k, hk⟩ := List.getElem?_of_mem hm
      have hg : (computeUnflatteningMap (topDict c.topology)).get? (E.1.total, k) = some E := by
        rw [computeUnflatteningMap_get?, hk]
      refine List.mem_map.2 ⟨(.int E.1.total, k), mem_entities.2 ?_, ?_⟩
      · rw [← htop, flattenTop_eq c.topology_nodup (fun D e => (D, e))]
        have hkeys : E.1.total ∈ (groupTop (sortTop c.topology) (fun (D : Dim) (e : Nat) => (D, e))).keys := by
          rw [groupTop_keys]
          exact List.mem_map.2 ⟨(E.1, n), (sortBy_perm _ _).mem_iff.2 hn, rfl⟩
        obtain ⟨v, hv⟩ := Option.isSome_iff_exists.1 (Dict.get?_isSome_iff.2 hkeys)
        refine ⟨v.length, List.mem_map.2 ⟨(E.1.total, v), (sortBy_perm _ _).mem_iff.2
          (Dict.mem_of_get?_eq_some hv), rfl⟩, ?_⟩
        rw [groupTop_get?] at hv
        split at hv
        · have hv := Option.some.inj hv
          rw [valsOf_eq] at hv
          rw [← hv, List.length_map]
          obtain ⟨hlt, _⟩ := List.getElem?_eq_some_iff.1 hk
          exact hlt
        · cases hv
      · simp only [unflat, hg, Option.getD_some]
  · refine (List.nodup_map_iff_inj_on (entities_nodup cf)).2 ?_
    intro F hF G hG h
    obtain ⟨t, h1, h2⟩ := hmem F hF
    obtain ⟨t', h1', h2'⟩ := hmem G hG
    have e1 := flat_unflat h2
    have e2 := flat_unflat h2'
    rw [h, e2] at e1
    simp only [Prod.mk.injEq, Dim.int.injEq] at e1
    exact Prod.ext (by rw [h1, h1', e1.1]) e1.2.symm
  · exact entities_nodup c

theorem total_flat {c : Cell} {t k : Nat} {E : Dim × Nat}
    (h : (computeUnflatteningMap (topDict c.topology)).get? (t, k) = some E) : E.1.total = t := by
  rw [computeUnflatteningMap_get?] at h
  simpa using (List.mem_filter.1 (List.mem_of_getElem? h)).2

/-- The function of the flattened element for a function of the product element. -/
noncomputable def flattenFn (p : Elem) (c : Cell) (y : (Dim × Nat) × BFun K) : (Dim × Nat) × BFun K :=
  (flat c y.1, fun α en x z => y.2 α (productEnt p en) x z)

theorem attached_flattened (φ : LeafVals K) {p : Elem} {c cf : Cell} (hf : DofsOK p) (hcube : IsCube c)
    (hc : p.cell = .ok c) (hcf : (Elem.flattened p).cell = .ok cf) :
    (attached φ (.flattened p)).Perm ((attached φ p).map (flattenFn p c)) := by
  obtain ⟨d, hd, hcov, hpart⟩ := hf c hc
  have hdf : (Elem.flattened p).entityDofs = .ok (flattenEntities d) := by
    simp [Elem.entityDofs, hd, bind, Except.bind, pure, Except.pure]
  obtain ⟨hm, hperm⟩ := flattened_entities hcube hc hcf
  rw [attached_eq hcf hdf, attached_eq hc hd]
  refine List.Perm.trans (.of_eq ?_) ((hperm.flatMap_right _).map _)
  rw [List.flatMap_map, List.map_flatMap]
  apply List.flatMap_congr
  intro F hF
  obtain ⟨t, ht, hg⟩ := hm F hF
  obtain ⟨D, k⟩ := F
  simp only at ht
  subst ht
  rw [dofsOn_flatten hcov c.topology_nodup hg, List.map_map]
  apply List.map_congr_left
  intro v _
  simp only [Function.comp_def, flattenFn]
  rw [flat_unflat hg]
  rfl

theorem flat_total {p : Elem} {c cf : Cell} (hcube : IsCube c) (hc : p.cell = .ok c)
    (hcf : (Elem.flattened p).cell = .ok cf) {E : Dim × Nat} (hE : E ∈ entities c) :
    (flat c E).1.total = E.1.total := by
  obtain ⟨hm, hperm⟩ := flattened_entities hcube hc hcf
  obtain ⟨F, hF, rfl⟩ := List.mem_map.1 (hperm.mem_iff.2 hE)
  obtain ⟨t, ht, hg⟩ := hm F hF
  rw [flat_unflat hg, total_flat hg]
  rfl

end FInAT
