import Verif.Spec.Trace
import Verif.Lemmas.Attached2
import Verif.Lemmas.Admits
import Verif.Lemmas.RestrictTP
import Mathlib.Tactic.LinearCombination

/-! # Traces of basis functions of composite elements -/

namespace FInAT

open Spec

variable {K : Type} [CommRing K]

/-! ### entities of product cells -/

theorem split_entities {cs : List Cell} {E : Dim × Nat} (h : E ∈ entities (.prod cs)) :
    ∃ Es, factorEntity cs (some E) = .ok Es ∧ List.Forall₂ (fun c E => E ∈ entities c) cs Es ∧
      (Es.map fun x => x.1.total).sum = E.1.total := by
  obtain ⟨Es, h1, h2, h3⟩ := isEntity_factor (mem_entities.1 h)
  exact ⟨Es, h1, h2.imp fun _ _ h => mem_entities.2 h, h3⟩

theorem factorEntity_combine {cs : List Cell} {Es : List (Dim × Nat)}
    (h : List.Forall₂ (fun c E => E ∈ entities c) cs Es) :
    factorEntity cs (some (combineEnt cs Es)) = .ok Es := by
  have key : ∃ ps, ps ∈ product (Cell.topologyL cs) ∧ ps.map Prod.fst = Es.map Prod.fst ∧
      List.zipWith (fun c dim => (Dict.get? (Cell.topology c) dim).getD 0) cs (Es.map Prod.fst) =
        ps.map Prod.snd ∧
      List.Forall₂ (fun i n => i < n) (Es.map Prod.snd) (ps.map Prod.snd) := by
    induction h with
    | nil => exact ⟨[], by simp [Cell.topologyL], rfl, rfl, .nil⟩
    | @cons c E cs Es hE _ ih =>
      obtain ⟨ps, h1, h2, h3, h4⟩ := ih
      obtain ⟨n, hn, hlt⟩ := mem_entities.1 hE
      refine ⟨(E.1, n) :: ps, ?_, by simp [h2], ?_, .cons hlt h4⟩
      · simp only [Cell.topologyL, product_cons, List.mem_flatMap, List.mem_map]
        exact ⟨_, hn, ps, h1, rfl⟩
      · simp only [List.map_cons, List.zipWith_cons_cons, h3]
        rw [Dict.get?_eq_some_of_mem c.topology_nodup hn]
        rfl
  obtain ⟨ps, h1, h2, h3, h4⟩ := key
  unfold combineEnt
  have hlt : ravel (ps.map Prod.snd) (Es.map Prod.snd) < (ps.map Prod.snd).prod := ravel_lt h4
  rw [h3, ← h2, factorEntity_eq h1 hlt, unravel_ravel h4, h2]
  congr 1
  rw [List.zip_map']
  simp

/-! ### products -/

/-- A function of a product element, split into functions of the factors. -/
theorem attached_product_split (φ : LeafVals K) {fs : List Elem} {cs : List Cell} (hg : GoodL fs)
    (hcs : Elem.cellL fs = .ok cs) {y : (Dim × Nat) × BFun K} (hy : y ∈ attached φ (.tensorProduct fs))
    {E : Dim × Nat} (hE : E ∈ entities (.prod cs)) :
    ∃ t Es, List.Forall₂ (fun f y => y ∈ attached φ f) fs t ∧
      factorEntity cs (some y.1) = .ok (t.map Prod.fst) ∧
      factorEntity cs (some E) = .ok Es ∧ List.Forall₂ (fun c E => E ∈ entities c) cs Es ∧
      (Es.map fun x => x.1.total).sum = E.1.total ∧
      ∀ α x z, y.2 α E x z =
        prodFn ((fs.map fun f => (sdim f, (vshape f).length)).zip (t.map Prod.snd)) α Es x z := by
  have hp := (attached_tensorProduct φ (dofsOKL fs hg) hcs).mem_iff.1 hy
  obtain ⟨t, ht, rfl⟩ := List.mem_map.1 hp
  have ht' : List.Forall₂ (fun f y => y ∈ attached φ f) fs t := by
    have := mem_product.1 ht
    rw [List.forall₂_map_right_iff] at this
    exact this.flip
  obtain ⟨Es, h1, h2, h3⟩ := split_entities hE
  refine ⟨t, Es, ht', ?_, h1, h2, h3, ?_⟩
  · apply factorEntity_combine
    have hm := cellL_mem hcs
    clear * - ht' hm
    induction hm generalizing t with
    | nil => cases ht'; exact .nil
    | cons hc _ ih =>
      cases ht' with
      | cons h hs => exact .cons (mem_attached hc h) (ih _ hs)
  · intro α x z
    simp only [combine, splitEnt, h1]

theorem prodFn_zero (φ : LeafVals K) (G : Frame K) {fs : List Elem} {cs : List Cell}
    (hm : List.Forall₂ (fun e c => e.cell = .ok c) fs cs) :
    ∀ {t : List ((Dim × Nat) × BFun K)} {Es : List (Dim × Nat)},
    List.Forall₂ (fun f y => y ∈ attached φ f) fs t →
    List.Forall₂ (fun c E => E ∈ entities c) cs Es →
    (∀ f ∈ fs, LocalTraces φ G .h1 f) →
    (¬ ∀ u ∈ cs.zip ((t.map Prod.fst).zip Es), G.sub u.1 u.2.1 u.2.2) →
    ∀ (x : List K) (z : List Nat), x.length = (Es.map fun x => x.1.total).sum →
      List.Forall₂ (fun i n => i < n) z (fs.map vshape).flatten →
    prodFn ((fs.map fun f => (sdim f, (vshape f).length)).zip (t.map Prod.snd))
      (List.replicate (Cell.prod cs).spatialDim 0) Es x z = 0 := by
  induction hm with
  | nil =>
    intro t Es ht hEs _ hn
    simp at hn
  | @cons f c fs cs hc hm ih =>
    intro t Es ht hEs hl hn x z hx hz
    cases ht with
    | @cons _ y _ t hy ht =>
    cases hEs with
    | @cons _ E _ Es hE hEs =>
    simp only [List.map_cons, List.zip_cons_cons, prodFn]
    simp only [List.map_cons, List.sum_cons] at hx
    simp only [List.map_cons, List.flatten_cons] at hz
    have hz' : InB z (vshape f ++ (fs.map vshape).flatten) := hz
    have hsd : sdim f = c.spatialDim := by simp [sdim, hc]
    have hsp : (Cell.prod (c :: cs)).spatialDim = c.spatialDim + (Cell.prod cs).spatialDim := by
      simp [Cell.spatialDim, Cell.spatialDimL]
    rw [hsd, hsp, List.take_replicate, List.drop_replicate, Nat.min_eq_left (Nat.le_add_right _ _),
      Nat.add_sub_cancel_left]
    by_cases hs : G.sub c y.1 E
    · have hn' : ¬ ∀ u ∈ cs.zip ((t.map Prod.fst).zip Es), G.sub u.1 u.2.1 u.2.2 := by
        intro hall
        apply hn
        intro u hu
        simp only [List.map_cons, List.zip_cons_cons, List.mem_cons] at hu
        rcases hu with rfl | hu
        · exact hs
        · exact hall u hu
      rw [ih ht hEs (fun f hf => hl f (by simp [hf])) hn' _ _ (by simp [hx])
        (hz'.split).2, mul_zero]
    · have h0 := hl f (by simp) c hc y hy E hE hs
        (fun g => g (List.replicate c.spatialDim 0) E (x.take E.1.total) (z.take (vshape f).length))
        ⟨_, _, by simp [hx], (hz'.split).1, rfl⟩
      exact (congrArg (· * _) h0).trans (zero_mul _)

/-- A function of a product of two elements. -/
theorem attached_pair (φ : LeafVals K) {a b : Elem} {ca cb : Cell} (hg : GoodL [a, b]) (ha : a.cell = .ok ca)
    (hb : b.cell = .ok cb) {y : (Dim × Nat) × BFun K} (hy : y ∈ attached φ (.tensorProduct [a, b]))
    {E : Dim × Nat} (hE : E ∈ entities (.prod [ca, cb])) :
    ∃ ya yb Ea Eb, ya ∈ attached φ a ∧ yb ∈ attached φ b ∧ Ea ∈ entities ca ∧ Eb ∈ entities cb ∧
      factorEntity [ca, cb] (some y.1) = .ok [ya.1, yb.1] ∧ factorEntity [ca, cb] (some E) = .ok [Ea, Eb] ∧
      Ea.1.total + Eb.1.total = E.1.total ∧
      ∀ x z, y.2 (List.replicate (ca.spatialDim + cb.spatialDim) 0) E x z =
        ya.2 (List.replicate ca.spatialDim 0) Ea (x.take Ea.1.total) (z.take (vshape a).length) *
        yb.2 (List.replicate cb.spatialDim 0) Eb ((x.drop Ea.1.total).take Eb.1.total)
          ((z.drop (vshape a).length).take (vshape b).length) := by
  have hcs : Elem.cellL [a, b] = .ok [ca, cb] := by
    simp [Elem.cellL, ha, hb, bind, Except.bind, pure, Except.pure]
  obtain ⟨t, Es, h1, h2, h3, h4, h5, h6⟩ := attached_product_split φ hg hcs hy hE
  obtain _ | ⟨hya, _ | ⟨hyb, _ | _⟩⟩ := h1
  obtain _ | ⟨hEa, _ | ⟨hEb, _ | _⟩⟩ := h4
  refine ⟨_, _, _, _, hya, hyb, hEa, hEb, h2, h3, by simpa using h5, fun x z => ?_⟩
  rw [h6]
  have hsa : sdim a = ca.spatialDim := by simp [sdim, ha]
  have hsb : sdim b = cb.spatialDim := by simp [sdim, hb]
  simp only [List.map_cons, List.map_nil, List.zip_cons_cons, prodFn, List.zip_nil_left, mul_one, hsa, hsb]
  rw [List.take_replicate, List.drop_replicate, Nat.min_eq_left (Nat.le_add_right _ _),
      Nat.add_sub_cancel_left, List.take_replicate, Nat.min_self]

/-! ### inner products -/

theorem inner_append (v w : List K) (f : Nat → K) :
    inner (v ++ w) f = inner v f + inner w fun j => f (v.length + j) := by
  induction v generalizing f with
  | nil => simp [inner]
  | cons a v ih =>
    simp only [List.cons_append, inner, ih, List.length_cons, add_assoc]
    congr 3
    funext j
    congr 1
    omega

theorem inner_zero_left {v : List K} (h : ∀ y ∈ v, y = 0) (f : Nat → K) : inner v f = 0 := by
  induction v generalizing f with
  | nil => rfl
  | cons a v ih =>
    rw [inner, h a (by simp), ih fun y hy => h y (by simp [hy])]
    simp

theorem inner_zero_right (v : List K) {f : Nat → K} (h : ∀ j < v.length, f j = 0) : inner v f = 0 := by
  induction v generalizing f with
  | nil => rfl
  | cons a v ih =>
    rw [inner, h 0 (by simp), ih fun j hj => h (j + 1) (by simpa using hj)]
    simp

theorem inner_mul_right (v : List K) (f : Nat → K) (b : K) : inner v (fun j => f j * b) = inner v f * b := by
  induction v generalizing f with
  | nil => simp [inner]
  | cons a v ih =>
    simp only [inner, ih]
    ring

theorem inner_congr (v : List K) {f g : Nat → K} (h : ∀ j < v.length, f j = g j) : inner v f = inner v g := by
  induction v generalizing f g with
  | nil => rfl
  | cons a v ih =>
    rw [inner, inner, h 0 (by simp), ih fun j hj => h (j + 1) (by simpa using hj)]

/-! ### other nodes -/

theorem local_product (φ : LeafVals K) (G : Frame K) {fs : List Elem} {vs : List Nat} (hg : GoodL fs)
    (hG : ∀ cs, Elem.cellL fs = .ok cs → G.Product cs) (hv : (Elem.tensorProduct fs).valueShape = .ok vs)
    (h : ∀ f ∈ fs, LocalTraces φ G .h1 f) : LocalTraces φ G .h1 (.tensorProduct fs) := by
  intro c hc y hy E hE hs L hL
  simp only [Elem.cell, bind_ok, pure, Except.pure, Except.ok.injEq] at hc
  obtain ⟨cs, hcs, rfl⟩ := hc
  obtain ⟨t, Es, h1, h2, h3, h4, h5, h6⟩ := attached_product_split φ hg hcs hy hE
  obtain ⟨x, z, hx, hz, rfl⟩ := hL
  simp only
  rw [h6]
  refine prodFn_zero φ G (cellL_mem hcs) h1 h4 h (fun hall => hs (hG cs hcs _ _ _ _ h2 h3 hall)) x z
    (hx.trans h5.symm) ?_
  rw [vshape_eq hv] at hz
  have hv' := hv
  simp only [Elem.valueShape, bind_ok] at hv'
  obtain ⟨ss, hss, hp⟩ := hv'
  rw [prodValueShape_flatten hp] at hz
  have : fs.map vshape = ss := by
    clear * - hss
    induction fs generalizing ss with
    | nil => simp only [Elem.valueShapeL, Except.ok.injEq] at hss; subst hss; rfl
    | cons f fs ih =>
      obtain ⟨s', ss', h1, h2, rfl⟩ := valueShapeL_cons hss
      simp [vshape_eq h1, ih _ h2]
  rwa [this]

theorem local_flattened (φ : LeafVals K) (G : Frame K) {s : Space} {p : Elem} (hg : Good (.flattened p))
    (hG : ∀ c cf, p.cell = .ok c → (Elem.flattened p).cell = .ok cf → G.Flat c cf)
    (h : LocalTraces φ G s p) : LocalTraces φ G s (.flattened p) := by
  intro cf hcf y hy F hF hs L hL
  have hc : ∃ c, p.cell = .ok c := by
    have := hcf
    simp only [Elem.cell, bind_ok] at this
    obtain ⟨c, hc, _⟩ := this
    exact ⟨c, hc⟩
  obtain ⟨c, hc⟩ := hc
  have hcube := hg.2 c hc
  have hf := dofsOK p hg.1
  obtain ⟨d, hd, hcov, hpart⟩ := hf c hc
  obtain ⟨hm, hperm⟩ := flattened_entities hcube hc hcf
  have hyp := (attached_flattened φ hf hcube hc hcf).mem_iff.1 hy
  obtain ⟨y0, hy0, rfl⟩ := List.mem_map.1 hyp
  obtain ⟨F', hF', hy0F⟩ := List.mem_map.1 (hperm.mem_iff.2 (mem_attached hc hy0))
  obtain ⟨t, ht, hg1⟩ := hm F hF
  obtain ⟨t', ht', hg'⟩ := hm F' hF'
  have hfe : ∀ {t k E}, (computeUnflatteningMap (topDict c.topology)).get? (t, k) = some E →
      flattenedEntity c (some (t, k)) = .ok E := by
    intro t k E h
    simp only [flattenedEntity, Option.getD_some]
    exact Dict.get_eq_ok_iff.2 h
  have hE : unflat c F ∈ entities c := hperm.mem_iff.1 (List.mem_map_of_mem hF)
  have hflat : flat c y0.1 = F' := by
    rw [← hy0F, flat_unflat hg', ← ht']
  have hFeq : F = (.int t, F.2) := by rw [← ht]
  have hFeq' : F' = (.int t', F'.2) := by rw [← ht']
  have hGf := hG c cf hc hcf
  have hns : ¬ G.sub c y0.1 (unflat c F) := by
    intro hsub
    apply hs
    simp only [flattenFn, hflat]
    rw [hFeq, hFeq']
    rw [← hy0F] at hsub
    exact hGf.sub _ _ _ _ _ _ (hfe hg') (hfe hg1) hsub
  have hpe : productEnt p F = unflat c F := by
    rw [hFeq]
    simp only [productEnt, unflattenEntity, hc, bind, Except.bind, hfe hg1]
    rw [← hFeq]
  have hsd : cf.spatialDim = c.spatialDim := by
    have h0 := hcf
    simp only [Elem.cell, hc, bind, Except.bind] at h0
    split at h0
    · cases h0; simp [Cell.spatialDim, *]
    · split at h0
      · cases h0; simp [Cell.spatialDim, *]
      · cases h0
  have htot : F.1.total = (unflat c F).1.total := by
    rw [total_flat hg1, ht]
    rfl
  cases s with
  | h1 =>
    obtain ⟨x, z, hx, hz, rfl⟩ := hL
    have := h c hc y0 hy0 _ hE hns _ ⟨x, z, hx.trans htot, hz, rfl⟩
    simpa only [flattenFn, hpe, hsd] using this
  | hdiv =>
    obtain ⟨x, n, hx, hn, rfl⟩ := hL
    have := h c hc y0 hy0 _ hE hns _ ⟨x, n, hx.trans htot, hGf.norm _ _ _ _ (hfe hg1) (hFeq ▸ hn), rfl⟩
    simpa only [flattenFn, hpe, hsd] using this
  | hcurl =>
    obtain ⟨x, n, hx, hn, rfl⟩ := hL
    have := h c hc y0 hy0 _ hE hns _ ⟨x, n, hx.trans htot, hGf.tang _ _ _ _ (hfe hg1) (hFeq ▸ hn), rfl⟩
    simpa only [flattenFn, hpe, hsd] using this

theorem local_enriched (φ : LeafVals K) (G : Frame K) {s : Space} {es : List Elem} {vs : List Nat}
    (hg : Good (.enriched es)) (hv : (Elem.enriched es).valueShape = .ok vs)
    (h : ∀ e ∈ es, LocalTraces φ G s e) : LocalTraces φ G s (.enriched es) := by
  intro c hc y hy E hE hs L hL
  have hy' := (attached_enriched φ (dofsOKL es hg) hc).mem_iff.1 hy
  obtain ⟨e, he, hye⟩ := List.mem_flatMap.1 hy'
  obtain ⟨_, _, _, _, hcell⟩ := enriched_cells hc
  refine h e he c (hcell e he) y hye E hE hs L ?_
  cases s with
  | hdiv => exact hL
  | hcurl => exact hL
  | h1 =>
    obtain ⟨x, z, hx, hz, rfl⟩ := hL
    refine ⟨x, z, hx, ?_, rfl⟩
    have hve : e.valueShape = .ok vs := by
      have hv' := hv
      simp only [Elem.valueShape, bind_ok] at hv'
      obtain ⟨ss, hss, hu⟩ := hv'
      have hall := (uniqueOf_mem hu).2
      clear * - hss hall he
      induction es generalizing ss with
      | nil => simp at he
      | cons f fs ih =>
        obtain ⟨s', ss', h1, h2, rfl⟩ := valueShapeL_cons hss
        rcases List.mem_cons.1 he with rfl | he
        · rw [h1, hall s' (by simp)]
        · exact ih he _ h2 fun b hb => hall b (by simp [hb])
    rwa [vshape_eq hve, ← vshape_eq hv]

theorem local_mixedSub (φ : LeafVals K) (G : Frame K) {e : Elem} {size offset : Nat}
    (h : LocalTraces φ G .h1 e) : LocalTraces φ G .h1 (.mixedSub e size offset) := by
  intro c hc y hy E hE hs L hL
  have hc' : e.cell = .ok c := hc
  have hy' : ∃ y0 ∈ attached φ e, y = (y0.1, fun α ent x z =>
      if offset ≤ z.headD 0 ∧ z.headD 0 < offset + (vshape e).prod then
        y0.2 α ent x (unravel (vshape e) (z.headD 0 - offset)) else 0) := by
    unfold attached at hy ⊢
    rw [hc] at hy
    rw [hc']
    have hd : (Elem.mixedSub e size offset).entityDofs = e.entityDofs := by simp [Elem.entityDofs]
    rw [hd] at hy
    cases hd' : e.entityDofs with
    | error _ => rw [hd'] at hy; simp at hy
    | ok d =>
      rw [hd'] at hy
      obtain ⟨F, hF, hy⟩ := List.mem_flatMap.1 hy
      obtain ⟨k, hk, rfl⟩ := List.mem_map.1 hy
      refine ⟨(F, fnOf φ e k), List.mem_flatMap.2 ⟨F, hF, List.mem_map.2 ⟨k, hk, rfl⟩⟩, ?_⟩
      simp only [Prod.mk.injEq, true_and]
      funext α ent x z
      simp only [fnOf, basisValue, Elem.indexShape]
  obtain ⟨y0, hy0, rfl⟩ := hy'
  obtain ⟨x, z, hx, hz, rfl⟩ := hL
  simp only
  split
  · rename_i hj
    exact h c hc' y0 hy0 E hE hs _ ⟨x, unravel (vshape e) (z.headD 0 - offset), hx,
      unravel_bounds (by omega), rfl⟩
  · rfl

theorem local_tensorFE (φ : LeafVals K) (G : Frame K) {e : Elem} {shape : List Nat} {tr : Bool} {vs : List Nat}
    (hg : Good e) (hv : e.valueShape = .ok vs)
    (h : LocalTraces φ G .h1 e) : LocalTraces φ G .h1 (.tensorFE e shape tr) := by
  intro c hc y hy E hE hs L hL
  have hc' : e.cell = .ok c := hc
  have hy' := (attached_tensorFE φ shape tr (dofsOK e hg) hc').mem_iff.1 hy
  obtain ⟨y0, hy0, hy1⟩ := List.mem_flatMap.1 hy'
  obtain ⟨comp, _, rfl⟩ := List.mem_map.1 hy1
  obtain ⟨x, z, hx, hz, rfl⟩ := hL
  have hvt : (Elem.tensorFE e shape tr).valueShape = .ok (shape ++ vs) := by
    simp [Elem.valueShape, hv, bind, Except.bind, pure, Except.pure]
  rw [vshape_eq hvt] at hz
  simp only [timesUnit]
  split
  · have hz' : InB z (shape ++ vs) := hz
    exact h c hc' y0 hy0 E hE hs _ ⟨x, z.drop shape.length, hx, by rw [vshape_eq hv]; exact hz'.split.2, rfl⟩
  · rfl

/-! ### H(div) and H(curl) wrappers -/

theorem mkHDiv_inv {a b : Elem} (h : mkHDiv (.tensorProduct [a, b]) = .ok (.hdiv (.tensorProduct [a, b]))) :
    ∃ ca ka kb comps, a.cell = .ok ca ∧ b.cell = .ok (.simplex 1) ∧ a.formdegree = .ok (some ka) ∧
      b.formdegree = .ok (some kb) ∧ ka + kb = ca.spatialDim ∧ selectHdiv [a, b] = .ok comps := by
  simp only [mkHDiv, Elem.formdegreeL, bind_ok, pure, Except.pure, Except.ok.injEq] at h
  obtain ⟨ks, ⟨ka, h1, _, ⟨kb, h2, _, rfl, rfl⟩, rfl⟩, h⟩ := h
  split at h
  · cases h
  rename_i hn
  obtain ⟨c, hc, h⟩ := bind_ok.1 h
  simp only [Elem.cell, Elem.cellL, bind_ok, pure, Except.pure, Except.ok.injEq] at hc
  obtain ⟨cs, ⟨ca, h3, _, ⟨cb, h4, _, rfl, rfl⟩, rfl⟩, rfl⟩ := hc
  split at h
  · cases h
  rename_i hs
  obtain ⟨comps, h5, _⟩ := bind_ok.1 h
  have h5' := h5
  simp only [selectHdiv, bind_ok, h4, Except.ok.injEq, exists_eq_left'] at h5'
  split at h5'
  · cases h5'
  rename_i hcb
  rw [not_not] at hcb
  subst hcb
  cases ka with
  | none => simp at hn
  | some ka =>
  cases kb with
  | none => simp at hn
  | some kb =>
  refine ⟨ca, ka, kb, comps, h3, h4, h1, h2, ?_, h5⟩
  simp [Cell.spatialDim, Cell.spatialDimL] at hs
  omega

theorem mkHCurl_inv {a b : Elem} (h : mkHCurl (.tensorProduct [a, b]) = .ok (.hcurl (.tensorProduct [a, b]))) :
    ∃ ca comps, a.cell = .ok ca ∧ b.cell = .ok (.simplex 1) ∧ selectHcurl [a, b] = .ok comps := by
  simp only [mkHCurl, Elem.formdegreeL, bind_ok, pure, Except.pure, Except.ok.injEq] at h
  obtain ⟨ks, _, h⟩ := h
  split at h
  · cases h
  split at h
  · cases h
  obtain ⟨comps, h5, _⟩ := bind_ok.1 h
  have h5' := h5
  simp only [selectHcurl, bind_ok] at h5'
  obtain ⟨cb, h4, h6⟩ := h5'
  split at h6
  · cases h6
  rename_i hcb
  rw [not_not] at hcb
  subst hcb
  simp only [Elem.cell, Elem.cellL, bind_ok] at h6
  obtain ⟨_, ⟨_, ⟨ca, h3, _⟩, _⟩, _⟩ := h6
  exact ⟨ca, comps, h3, h4, h5⟩

/-- What is known about a function of a wrapped product of two elements. -/
structure PairFn (φ : LeafVals K) (G : Frame K) (a b : Elem) (ca cb : Cell) (E' E : Dim × Nat)
    (F : List K → List Nat → K) where
  ya : (Dim × Nat) × BFun K
  yb : (Dim × Nat) × BFun K
  Ea : Dim × Nat
  Eb : Dim × Nat
  memA : ya ∈ attached φ a
  memB : yb ∈ attached φ b
  entA : Ea ∈ entities ca
  entB : Eb ∈ entities cb
  split : factorEntity [ca, cb] (some E) = .ok [Ea, Eb]
  not_sub : ¬ (G.sub ca ya.1 Ea ∧ G.sub cb yb.1 Eb)
  value : ∀ x z, F x z =
        ya.2 (List.replicate ca.spatialDim 0) Ea (x.take Ea.1.total) (z.take (vshape a).length) *
        yb.2 (List.replicate cb.spatialDim 0) Eb ((x.drop Ea.1.total).take Eb.1.total)
          ((z.drop (vshape a).length).take (vshape b).length)
  total : Ea.1.total + Eb.1.total = E.1.total

theorem pairFn (φ : LeafVals K) (G : Frame K) {a b : Elem} {ca cb : Cell} (hg : GoodL [a, b])
    (ha : a.cell = .ok ca) (hb : b.cell = .ok cb) (hG : G.Extruded ca cb) {y : (Dim × Nat) × BFun K}
    (hy : y ∈ attached φ (.tensorProduct [a, b])) {E : Dim × Nat} (hE : E ∈ entities (.prod [ca, cb]))
    (hs : ¬ G.sub (.prod [ca, cb]) y.1 E) :
    Nonempty (PairFn φ G a b ca cb y.1 E
      (y.2 (List.replicate (ca.spatialDim + cb.spatialDim) 0) E)) := by
  obtain ⟨ya, yb, Ea, Eb, h1, h2, h3, h4, h5, h6, h7, h8⟩ := attached_pair φ hg ha hb hy hE
  refine ⟨⟨ya, yb, Ea, Eb, h1, h2, h3, h4, h6, fun h => hs (hG.product _ _ _ _ h5 h6 ?_), h8, h7⟩⟩
  intro t ht
  simp only [List.zip_cons_cons, List.zip_nil_left, List.mem_cons, List.not_mem_nil, or_false] at ht
  rcases ht with rfl | rfl
  · exact h.1
  · exact h.2

section
variable {φ : LeafVals K} {G : Frame K} {a b : Elem} {ca cb : Cell} {E' E : Dim × Nat}
  {F : List K → List Nat → K}

theorem PairFn.zeroA (q : PairFn φ G a b ca cb E' E F) (ha : a.cell = .ok ca) (hva : vshape a = [])
    (hl : LocalTraces φ G .h1 a) (hn : ¬ G.sub ca q.ya.1 q.Ea) {x : List K} (hx : x.length = E.1.total) :
    F x [] = 0 := by
  rw [q.value]
  have h0 := hl ca ha q.ya q.memA q.Ea q.entA hn _ ⟨x.take q.Ea.1.total, [], by
    have := q.total
    simp; omega, by simp [hva], rfl⟩
  simp only [List.take_nil]
  exact (congrArg (· * _) h0).trans (zero_mul _)

theorem PairFn.zeroB (q : PairFn φ G a b ca cb E' E F) (hb : b.cell = .ok cb)
    (hvb : vshape b = []) (hl : LocalTraces φ G .h1 b) (hn : ¬ G.sub cb q.yb.1 q.Eb) {x : List K}
    (hx : x.length = E.1.total) (z : List Nat) : F x z = 0 := by
  rw [q.value]
  have h0 := hl cb hb q.yb q.memB q.Eb q.entB hn _ ⟨(x.drop q.Ea.1.total).take q.Eb.1.total, [], by
    have := q.total
    simp; omega, by simp [hvb], rfl⟩
  simp only [hvb, List.length_nil, List.take_zero]
  exact (congrArg (_ * ·) h0).trans (mul_zero _)

theorem PairFn.vec (q : PairFn φ G a b ca cb E' E F) (hva : vshape a = [2]) (hvb : vshape b = []) (x : List K)
    (j : Nat) : F x [j] = q.ya.2 (List.replicate ca.spatialDim 0) q.Ea (x.take q.Ea.1.total) [j] *
      q.yb.2 (List.replicate cb.spatialDim 0) q.Eb ((x.drop q.Ea.1.total).take q.Eb.1.total) [] := by
  rw [q.value]
  simp [hva, hvb]

theorem PairFn.zeroDiv (q : PairFn φ G a b ca cb E' E F) (ha : a.cell = .ok ca) (hva : vshape a = [2])
    (hvb : vshape b = []) (hl : LocalTraces φ G .hdiv a) (hn : ¬ G.sub ca q.ya.1 q.Ea) {x : List K}
    (hx : x.length = E.1.total) {n0 n1 : K} (hnn : G.norm ca q.Ea [n0, n1]) :
    n0 * F x [0] + n1 * F x [1] = 0 := by
  have h0 := hl ca ha q.ya q.memA q.Ea q.entA hn _ ⟨x.take q.Ea.1.total, _, by
    have := q.total
    simp; omega, hnn, rfl⟩
  simp only [inner] at h0
  rw [q.vec hva hvb, q.vec hva hvb, ← mul_assoc, ← mul_assoc, ← add_mul]
  refine (congrArg (· * _) ?_).trans (zero_mul _)
  simpa using h0

theorem PairFn.zeroCurl (q : PairFn φ G a b ca cb E' E F) (ha : a.cell = .ok ca) (hva : vshape a = [2])
    (hvb : vshape b = []) (hl : LocalTraces φ G .hcurl a) (hn : ¬ G.sub ca q.ya.1 q.Ea) {x : List K}
    (hx : x.length = E.1.total) {n0 n1 : K} (hnn : G.tang ca q.Ea [n0, n1]) :
    n0 * F x [0] + n1 * F x [1] = 0 := by
  have h0 := hl ca ha q.ya q.memA q.Ea q.entA hn _ ⟨x.take q.Ea.1.total, _, by
    have := q.total
    simp; omega, hnn, rfl⟩
  simp only [inner] at h0
  rw [q.vec hva hvb, q.vec hva hvb, ← mul_assoc, ← mul_assoc, ← add_mul]
  refine (congrArg (· * _) ?_).trans (zero_mul _)
  simpa using h0

end

/-- H(div) wrappers: it is enough to look at the values of the components. -/
theorem local_hdiv (φ : LeafVals K) (G : Frame K) {a b : Elem} (hg : GoodL [a, b])
    (hmk : mkHDiv (.tensorProduct [a, b]) = .ok (.hdiv (.tensorProduct [a, b])))
    (hG : ∀ ca cb, a.cell = .ok ca → b.cell = .ok cb → G.Extruded ca cb) {comps : List Comp}
    (hsel : selectHdiv [a, b] = .ok comps)
    (key : ∀ ca, a.cell = .ok ca → b.cell = .ok (.simplex 1) → G.Extruded ca (.simplex 1) →
      ∀ E' E F (q : PairFn φ G a b ca (.simplex 1) E' E F) x, x.length = E.1.total → ∀ na nb0,
      na.length = ca.spatialDim →
      ((G.norm ca q.Ea na ∧ ¬ G.sub ca q.ya.1 q.Ea ∧ nb0 = 0) ∨
       (¬ G.sub (.simplex 1) q.yb.1 q.Eb ∧ ∀ y ∈ na, y = 0)) →
      inner (na ++ [nb0]) (wrapValue (.ok comps) (F x)) = 0) :
    LocalTraces φ G .hdiv (.hdiv (.tensorProduct [a, b])) := by
  obtain ⟨ca, ka, kb, _, ha, hb, _, _, _, _⟩ := mkHDiv_inv hmk
  intro c hc y hy E hE hs L hL
  have hc' : c = .prod [ca, .simplex 1] := by
    simp only [Elem.cell, Elem.cellL, ha, hb, bind, Except.bind, pure, Except.pure, Except.ok.injEq] at hc
    exact hc.symm
  subst hc'
  rw [attached_hdiv] at hy
  obtain ⟨y0, hy0, rfl⟩ := List.mem_map.1 hy
  have hGe := hG _ _ ha hb
  obtain ⟨q⟩ := pairFn φ G hg ha hb hGe hy0 hE hs
  obtain ⟨x, n, hx, hn, rfl⟩ := hL
  obtain ⟨na, nb, rfl, hna, hnb, hcase⟩ := hGe.norm _ _ _ _ q.split hn
  obtain ⟨nb0, rfl⟩ := List.length_eq_one_iff.1 hnb
  have hsd : (Cell.prod [ca, .simplex 1]).spatialDim = ca.spatialDim + (Cell.simplex 1).spatialDim := rfl
  refine Eq.trans ?_ (key ca ha hb hGe _ _ _ q x hx na nb0 hna ?_)
  · refine inner_congr _ fun j _ => ?_
    simp only [placed, Elem.factorsOf, hsel, hsd]
    rfl
  · rcases hcase with ⟨h1, h2, h3⟩ | ⟨h1, h2, h3⟩
    · refine .inl ⟨h1, fun h => q.not_sub ⟨h, ?_⟩, h3 nb0 (by simp)⟩
      rw [h2]
      exact hGe.wholeB _ (mem_attached hb q.memB)
    · refine .inr ⟨fun h => q.not_sub ⟨?_, h⟩, h3⟩
      rw [h2]
      exact hGe.wholeA _ (mem_attached ha q.memA)

/-- H(curl) wrappers: it is enough to look at the values of the components. -/
theorem local_hcurl (φ : LeafVals K) (G : Frame K) {a b : Elem} (hg : GoodL [a, b])
    (hmk : mkHCurl (.tensorProduct [a, b]) = .ok (.hcurl (.tensorProduct [a, b])))
    (hG : ∀ ca cb, a.cell = .ok ca → b.cell = .ok cb → G.Extruded ca cb) {comps : List Comp}
    (hsel : selectHcurl [a, b] = .ok comps)
    (key : ∀ ca, a.cell = .ok ca → b.cell = .ok (.simplex 1) → G.Extruded ca (.simplex 1) →
      ∀ E' E F (q : PairFn φ G a b ca (.simplex 1) E' E F) x, x.length = E.1.total → ∀ ta tb0,
      ta.length = ca.spatialDim → (G.tang ca q.Ea ta ∨ ∀ y ∈ ta, y = 0) →
      (¬ G.sub ca q.ya.1 q.Ea ∨ tb0 = 0) →
      inner (ta ++ [tb0]) (wrapValue (.ok comps) (F x)) = 0) :
    LocalTraces φ G .hcurl (.hcurl (.tensorProduct [a, b])) := by
  obtain ⟨ca, _, ha, hb, _⟩ := mkHCurl_inv hmk
  intro c hc y hy E hE hs L hL
  have hc' : c = .prod [ca, .simplex 1] := by
    simp only [Elem.cell, Elem.cellL, ha, hb, bind, Except.bind, pure, Except.pure, Except.ok.injEq] at hc
    exact hc.symm
  subst hc'
  rw [attached_hcurl] at hy
  obtain ⟨y0, hy0, rfl⟩ := List.mem_map.1 hy
  have hGe := hG _ _ ha hb
  obtain ⟨q⟩ := pairFn φ G hg ha hb hGe hy0 hE hs
  obtain ⟨x, n, hx, hn, rfl⟩ := hL
  obtain ⟨ta, tb, rfl, hta, htb, hA, hB⟩ := hGe.tang _ _ _ _ q.split hn
  obtain ⟨tb0, rfl⟩ := List.length_eq_one_iff.1 htb
  have hsd : (Cell.prod [ca, .simplex 1]).spatialDim = ca.spatialDim + (Cell.simplex 1).spatialDim := rfl
  refine Eq.trans ?_ (key ca ha hb hGe _ _ _ q x hx ta tb0 hta hA ?_)
  · refine inner_congr _ fun j _ => ?_
    simp only [placed, Elem.factorsOf, hsel, hsd]
    rfl
  · rcases hB with hB | hB
    · refine .inl fun h => q.not_sub ⟨h, ?_⟩
      rw [hGe.lineB rfl _ _ hB]
      exact hGe.wholeB _ (mem_attached hb q.memB)
    · exact .inr (hB tb0 (by simp))

/-- **Conforming elements have local traces.** -/
theorem conforms_local (φ : LeafVals K) (G : Frame K) {s : Space} {e : Elem} (h : Conforms φ G s e) :
    Good e → LocalTraces φ G s e := by
  induction h with
  | leaf h => exact fun _ => h
  | product _ hG hv ih =>
    intro hg
    exact local_product φ G hg hG hv fun f hf => ih f hf (goodL_iff.1 hg f hf)
  | flattened _ hG ih => exact fun hg => local_flattened φ G hg hG (ih hg.1)
  | enriched _ hv ih =>
    intro hg
    exact local_enriched φ G hg hv fun f hf => ih f hf (goodL_iff.1 hg f hf)
  | mixedSub _ ih => exact fun hg => local_mixedSub φ G (ih hg)
  | tensorFE _ hv ih => exact fun hg => local_tensorFE φ G hg hv (ih hg)
  | hdivFirst hmk hG hka hkb hva hvb _ ih =>
    intro hg
    obtain ⟨ca, ka, kb, comps, ha, hb, h1, h2, hk, hsel⟩ := mkHDiv_inv hmk
    rw [hka] at h1
    rw [hkb] at h2
    cases h1
    cases h2
    have hsel' : comps = [.entry true [], .zero] := by
      simpa [selectHdiv, hb, hka, hkb, bind, Except.bind, eq_comm] using hsel
    subst hsel'
    refine local_hdiv φ G hg hmk hG hsel fun ca' ha' _ _ E' E F q x hx na nb0 hna hcase => ?_
    rw [ha] at ha'
    cases ha'
    rw [← hk] at hna
    obtain ⟨n0, rfl⟩ := List.length_eq_one_iff.1 hna
    rcases hcase with ⟨h1, h2, rfl⟩ | ⟨h2, h3⟩
    · simp [inner, wrapValue, compValue, q.zeroA ha hva (ih hg.1) h2 hx]
    · simp [inner, wrapValue, compValue, h3 n0]
  | @hdivLast a b hmk hG hkb hva hvb _ ih =>
    intro hg
    obtain ⟨ca, ka, kb, comps, ha, hb, h1, h2, hk, hsel⟩ := mkHDiv_inv hmk
    rw [hkb] at h2
    cases h2
    have hsel' : comps = List.replicate ca.spatialDim .zero ++ [.entry false []] := by
      rw [← hk]
      simp only [selectHdiv, hb, h1, hkb, bind, Except.bind] at hsel
      simp only [ne_eq, not_true_eq_false, if_false] at hsel
      match ka, hsel with
      | 0, hsel => simp at hsel
      | 1, hsel => simpa [eq_comm] using hsel
      | 2, hsel => simpa [eq_comm, List.replicate] using hsel
      | k + 3, hsel => simp at hsel
    subst hsel'
    refine local_hdiv φ G hg hmk hG hsel fun ca' ha' _ _ E' E F q x hx na nb0 hna hcase => ?_
    rw [ha] at ha'
    cases ha'
    have hw : ∀ j < na.length, wrapValue (.ok (List.replicate ca.spatialDim .zero ++ [.entry false []])) (F x) j = 0 := by
      intro j hj
      rw [hna] at hj
      simp [wrapValue, List.getElem?_append, hj, compValue]
    rw [inner_append, inner_zero_right na hw, zero_add]
    rcases hcase with ⟨h1, h2, rfl⟩ | ⟨h2, h3⟩
    · simp [inner]
    · simp [inner, wrapValue, hna, compValue, q.zeroB hb hvb (ih hg.2.1) h2 hx]
  | hdivContra hmk hG hka hkb hva hvb hm _ ih =>
    intro hg
    obtain ⟨ca, ka, kb, comps, ha, hb, h1, h2, hk, hsel⟩ := mkHDiv_inv hmk
    rw [hka] at h1
    rw [hkb] at h2
    cases h1
    cases h2
    have hsel' : comps = [.entry false [0], .entry false [1], .zero] := by
      simpa [selectHdiv, hb, hka, hkb, hm, bind, Except.bind, eq_comm] using hsel
    subst hsel'
    refine local_hdiv φ G hg hmk hG hsel fun ca' ha' _ _ E' E F q x hx na nb0 hna hcase => ?_
    rw [ha] at ha'
    cases ha'
    rw [← hk] at hna
    obtain ⟨n0, n1, rfl⟩ := List.length_eq_two.1 hna
    rcases hcase with ⟨h1, h2, rfl⟩ | ⟨h2, h3⟩
    · have := q.zeroDiv ha hva hvb (ih hg.1) h2 hx h1
      simpa [inner, wrapValue, compValue] using this
    · simp [inner, wrapValue, compValue, h3 n0, h3 n1]
  | hdivCo hmk hG hka hkb hva hvb hm _ ih =>
    intro hg
    obtain ⟨ca, ka, kb, comps, ha, hb, h1, h2, hk, hsel⟩ := mkHDiv_inv hmk
    rw [hka] at h1
    rw [hkb] at h2
    cases h1
    cases h2
    have hsel' : comps = [.entry false [1], .entry true [0], .zero] := by
      simpa [selectHdiv, hb, hka, hkb, hm, bind, Except.bind, eq_comm] using hsel
    subst hsel'
    refine local_hdiv φ G hg hmk hG hsel fun ca' ha' _ hGe E' E F q x hx na nb0 hna hcase => ?_
    rw [ha] at ha'
    cases ha'
    rw [← hk] at hna
    obtain ⟨n0, n1, rfl⟩ := List.length_eq_two.1 hna
    rcases hcase with ⟨h1, h2, rfl⟩ | ⟨h2, h3⟩
    · have := q.zeroCurl ha hva hvb (ih hg.1) h2 hx (hGe.turnNorm hk.symm _ _ _ h1)
      simp [inner, wrapValue, compValue]
      linear_combination this
    · simp [inner, wrapValue, compValue, h3 n0, h3 n1]
  | @hcurlFirst a b hmk hG hka hkb hva hvb hm _ ih =>
    intro hg
    obtain ⟨ca, comps, ha, hb, hsel⟩ := mkHCurl_inv hmk
    have hcell : (Elem.tensorProduct [a, b]).cell = .ok (.prod [ca, .simplex 1]) := by
      simp only [Elem.cell, Elem.cellL, ha, hb, bind, Except.bind, pure, Except.pure]
    have hsel' : comps = [.entry false [], .zero] := by
      simpa [selectHcurl, hb, hcell, hka, hkb, hm, bind, Except.bind, eq_comm] using hsel
    subst hsel'
    refine local_hcurl φ G hg hmk (fun ca cb h1 h2 => (hG ca cb h1 h2).1) hsel
      fun ca' ha' _ hGe E' E F q x hx ta tb0 hta hA hB => ?_
    have hsd := (hG _ _ ha' hb).2
    have hta' := hta
    rw [hsd] at hta'
    obtain ⟨t0, rfl⟩ := List.length_eq_one_iff.1 hta'
    rcases hA with hA | hA
    · have hn : ¬ G.sub (.simplex 1) q.yb.1 q.Eb := fun h => q.not_sub ⟨by
        rw [hGe.lineA hsd _ _ hA]
        exact hGe.wholeA _ (mem_attached ha' q.memA), h⟩
      simp [inner, wrapValue, compValue, q.zeroB hb hvb (ih hg.2.1) hn hx]
    · simp [inner, wrapValue, compValue, hA t0]
  | @hcurlLast a b hmk hG hka hkb hva hvb hm _ ih =>
    intro hg
    obtain ⟨ca, comps, ha, hb, hsel⟩ := mkHCurl_inv hmk
    have hcell : (Elem.tensorProduct [a, b]).cell = .ok (.prod [ca, .simplex 1]) := by
      simp only [Elem.cell, Elem.cellL, ha, hb, bind, Except.bind, pure, Except.pure]
    have hsel' : comps = List.replicate ca.spatialDim .zero ++ [.entry false []] := by
      simpa [selectHcurl, hb, hcell, hka, hkb, hm, bind, Except.bind, eq_comm, Cell.spatialDim,
        Cell.spatialDimL] using hsel
    subst hsel'
    refine local_hcurl φ G hg hmk hG hsel
      fun ca' ha' _ hGe E' E F q x hx ta tb0 hta hA hB => ?_
    rw [ha] at ha'
    cases ha'
    have hw : ∀ j < ta.length, wrapValue (.ok (List.replicate ca.spatialDim .zero ++ [.entry false []])) (F x) j = 0 := by
      intro j hj
      rw [hta] at hj
      simp [wrapValue, List.getElem?_append, hj, compValue]
    rw [inner_append, inner_zero_right ta hw, zero_add]
    rcases hB with hB | rfl
    · simp [inner, wrapValue, hta, compValue, q.zeroA ha hva (ih hg.1) hB hx]
    · simp [inner]
  | hcurlCo hmk hG hva hvb hm _ _ ih1 ih2 =>
    intro hg
    obtain ⟨ca, comps, ha, hb, hsel⟩ := mkHCurl_inv hmk
    have hsel' : comps = [.entry false [0], .entry false [1], .zero] := by
      simp only [selectHcurl, hm, bind_ok] at hsel
      obtain ⟨_, _, h⟩ := hsel
      split at h
      · cases h
      · simp only [bind_ok, Except.ok.injEq] at h
        obtain ⟨_, _, _, _, _, _, h⟩ := h
        exact h.symm
    subst hsel'
    refine local_hcurl φ G hg hmk (fun ca cb h1 h2 => (hG ca cb h1 h2).1) hsel
      fun ca' ha' _ hGe E' E F q x hx ta tb0 hta hA hB => ?_
    have hsd := (hG _ _ ha' hb).2
    have hta' := hta
    rw [hsd] at hta'
    obtain ⟨t0, t1, rfl⟩ := List.length_eq_two.1 hta'
    rcases hA with hA | hA
    · by_cases hn : G.sub ca' q.ya.1 q.Ea
      · have hn' : ¬ G.sub (.simplex 1) q.yb.1 q.Eb := fun h => q.not_sub ⟨hn, h⟩
        simp [inner, wrapValue, compValue, q.zeroB hb hvb (ih2 hg.2.1) hn' hx]
      · have := q.zeroCurl ha' hva hvb (ih1 hg.1) hn hx hA
        simpa [inner, wrapValue, compValue] using this
    · simp [inner, wrapValue, compValue, hA t0, hA t1]
  | hcurlContra hmk hG hva hvb hm _ _ ih1 ih2 =>
    intro hg
    obtain ⟨ca, comps, ha, hb, hsel⟩ := mkHCurl_inv hmk
    have hsel' : comps = [.entry true [1], .entry false [0], .zero] := by
      simp only [selectHcurl, hm, bind_ok] at hsel
      obtain ⟨_, _, h⟩ := hsel
      split at h
      · cases h
      · simp only [bind_ok, Except.ok.injEq] at h
        obtain ⟨_, _, _, _, _, _, h⟩ := h
        exact h.symm
    subst hsel'
    refine local_hcurl φ G hg hmk (fun ca cb h1 h2 => (hG ca cb h1 h2).1) hsel
      fun ca' ha' _ hGe E' E F q x hx ta tb0 hta hA hB => ?_
    have hsd := (hG _ _ ha' hb).2
    have hta' := hta
    rw [hsd] at hta'
    obtain ⟨t0, t1, rfl⟩ := List.length_eq_two.1 hta'
    rcases hA with hA | hA
    · by_cases hn : G.sub ca' q.ya.1 q.Ea
      · have hn' : ¬ G.sub (.simplex 1) q.yb.1 q.Eb := fun h => q.not_sub ⟨hn, h⟩
        simp [inner, wrapValue, compValue, q.zeroB hb hvb (ih2 hg.2.1) hn' hx]
      · rcases hGe.turnTang hsd _ _ _ hA with he | hnorm
        · exact absurd (by rw [he]; exact hGe.wholeA _ (mem_attached ha' q.memA)) hn
        · have := q.zeroDiv ha' hva hvb (ih1 hg.1) hn hx hnorm
          simp [inner, wrapValue, compValue]
          linear_combination this
    · simp [inner, wrapValue, compValue, hA t0, hA t1]

end FInAT
