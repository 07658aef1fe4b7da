import Verif.Lemmas.Restrict

/-! # Restriction: the other element types and the induction -/

namespace FInAT

open Spec Elem

variable {K : Type} [CommRing K]

mutual
theorem Restrictable.good : ∀ e : Elem, Restrictable e → Good e
  | .leaf l, h => h.1
  | .tensorProduct fs, h => RestrictableL.good fs h.2.1
  | .flattened p, h => ⟨Restrictable.good p h.1, h.2⟩
  | .enriched es, h => RestrictableL.good es h.1
  | .mixedSub _ _ _, h => False.elim h
  | .discontinuous e, h => by simpa only [Restrictable, Good] using h
  | .tensorFE e _ _, h => Restrictable.good e h
  | .hdiv w, h => Restrictable.good w h.2.1
  | .hcurl w, h => Restrictable.good w h.2.1
  | .quadrature _ _ _, h => False.elim h
theorem RestrictableL.good : ∀ es : List Elem, RestrictableL es → GoodL es
  | [], _ => trivial
  | e :: es, h => ⟨Restrictable.good e h.1, RestrictableL.good es h.2⟩
end

/-- A result that is not an enriched element. -/
theorem okRes_single {φ : LeafVals K} {e e' : Elem} {dom : Domain} {cl : Bool} {c : Cell} {vs : List Nat}
    (hg : Good e') (hf : ¬ IsEnriched e') (hc : e'.cell = .ok c) (hv : e'.valueShape = .ok vs)
    (hu : Uniform e → ∀ k, e.formdegree = .ok k → e'.formdegree = .ok k ∧ e'.mapping = e.mapping)
    (hp : (attached φ e').Perm ((attached φ e).filter fun y => keeps dom cl c.spatialDim y.1.1.total)) :
    OkRes φ e dom cl c vs (.elem e') := by
  have h1 : enrichedParts e' = [e'] := by
    cases e' <;> first | rfl | exact absurd trivial hf
  have h2 : FlatEnriched e' := by
    cases e' <;> first | trivial | exact absurd trivial hf
  refine ⟨hg, h2, ?_, ?_, ?_, hp⟩ <;> rw [h1]
  · simp
  · intro p hp; simp only [List.mem_singleton] at hp; subst hp; exact ⟨hc, hv⟩
  · intro hun k hk p hp; simp only [List.mem_singleton] at hp; subst hp; exact hu hun k hk

/-- Restricting an element with interior dofs only. -/
theorem interior_ok {φ : LeafVals K} {e : Elem} {c : Cell} {vs : List Nat} {dom : Domain} {cl : Bool} (hg : Good e)
    (hf : ¬ IsEnriched e) (hc : e.cell = .ok c) (hv : e.valueShape = .ok vs) (hd : DomainOK dom c.spatialDim)
    (hi : ∀ y ∈ attached φ e, y.1.1 = c.dimension) :
    OkRes φ e dom cl c vs (if dom = .interior then .elem e else .null) := by
  obtain ⟨m, hm, hmn, hmi⟩ := hd
  by_cases h : dom = .interior
  · rw [if_pos h]
    refine okRes_single hg hf hc hv (fun _ k hk => ⟨hk, rfl⟩) ?_
    rw [List.filter_eq_self.2]
    intro y hy
    rw [hi y hy, Cell.total_dimension, h]
    simp [keeps, domainDim]
  · rw [if_neg h]
    refine List.filter_eq_nil_iff.2 fun y hy => ?_
    rw [hi y hy, Cell.total_dimension]
    have : m ≠ c.spatialDim := fun hx => h (hmi hx)
    simp only [keeps, hm]
    split <;> simp <;> omega

theorem stmt_leaf {φ : LeafVals K} (hφ : Labelled φ) {l : Leaf} (h : Restrictable (.leaf l)) : Stmt φ (.leaf l) := by
  intro c vs dom cl hc hv hd
  obtain ⟨hg, hp, hk⟩ := h
  simp only [Elem.cell, Except.ok.injEq] at hc
  subst hc
  have hfiat : ∀ cl', (∀ y ∈ attached φ (.leaf l), keeps dom cl' l.cell.spatialDim y.1.1.total =
      keeps dom cl l.cell.spatialDim y.1.1.total) →
      ∃ r, restrictFiat l dom cl' = .ok r ∧ OkRes φ (.leaf l) dom cl l.cell vs r := by
    intro cl' hcl
    obtain ⟨r, hr, hor⟩ := restrictFiat_ok hφ hg hp cl' hd
    refine ⟨r, hr, ?_⟩
    rw [List.filter_congr hcl] at hor
    rcases hor with ⟨rfl, h⟩ | ⟨l', rfl, h1, h2, h3, h4, h5, h6⟩
    · exact h
    · refine okRes_single h1 id (by simp [Elem.cell, h2]) ?_ ?_ (.of_eq h6)
      · simp only [Elem.valueShape, h3] at hv ⊢
        exact hv
      · intro _ k hk
        simp only [Elem.formdegree, Elem.mapping, h4, h5] at hk ⊢
        exact ⟨hk, trivial⟩
  have hdofs : ∀ y ∈ attached φ (.leaf l), dofsOn l.dofs y.1.1 y.1.2 ≠ [] := by
    intro y hy
    rw [attached_eq (c := l.cell) (d := l.dofs) rfl rfl] at hy
    obtain ⟨E, _, hy⟩ := List.mem_flatMap.1 hy
    obtain ⟨k, hk, rfl⟩ := List.mem_map.1 hy
    exact List.ne_nil_of_mem hk
  rcases hk with hk | ⟨hk, hi⟩ | ⟨hk, hi⟩
  · simp only [restrict, hk]
    exact hfiat cl fun _ _ => rfl
  · simp only [restrict, hk]
    exact ⟨_, rfl, interior_ok hg id rfl hv hd fun y hy => hi _ _ (hdofs y hy)⟩
  · simp only [restrict, hk]
    refine hfiat true fun y hy => ?_
    have ht := hi _ _ (hdofs y hy)
    obtain ⟨m, hm, hmn, hmi⟩ := hd
    simp only [keeps, hm]
    by_cases hdi : dom = .interior
    · simp [hdi]
    · have : m ≠ l.cell.spatialDim := fun hx => hdi (hmi hx)
      cases cl
      · simp [hdi]; omega
      · simp

theorem stmt_discontinuous {φ : LeafVals K} {e : Elem} (hg : Good e) : Stmt φ (.discontinuous e) := by
  intro c vs dom cl hc hv hd
  refine ⟨_, rfl, interior_ok (e := .discontinuous e) hg id hc hv hd ?_⟩
  intro y hy
  have hd' : (Elem.discontinuous e).entityDofs =
      .ok (build c.topology fun d k => if d = c.dimension ∧ k = 0 then List.range e.spaceDim else []) := by
    simp only [Elem.entityDofs, show e.cell = .ok c from hc, bind, Except.bind]
    exact discontinuousDofs_eq c.topology_nodup c.dimension_mem _
  rw [attached_eq hc hd'] at hy
  obtain ⟨E, hE, hy⟩ := List.mem_flatMap.1 hy
  obtain ⟨k, hk, rfl⟩ := List.mem_map.1 hy
  obtain ⟨n, hn, hlt⟩ := mem_entities.1 hE
  rw [build_dofsOn c.topology_nodup _ hn hlt] at hk
  by_contra hne
  rw [if_neg (fun h => hne h.1)] at hk
  simp at hk

theorem stmt_tensorFE {φ : LeafVals K} {e : Elem} (s : List Nat) (tr : Bool) (hS : Stmt φ e) (hg : Good e) :
    Stmt φ (.tensorFE e s tr) := by
  intro c vs dom cl hc hv hd
  simp only [Elem.valueShape, bind_ok, pure, Except.pure, Except.ok.injEq] at hv
  obtain ⟨vs', hv, rfl⟩ := hv
  obtain ⟨r, hr, hok⟩ := hS c vs' dom cl hc hv hd
  have hpre : ∀ L : List ((Dim × Nat) × BFun K),
      (L.flatMap fun y => (ndindex s).map fun comp => (y.1, timesUnit s comp y.2)).filter
        (fun y => keeps dom cl c.spatialDim y.1.1.total) =
      (L.filter fun y => keeps dom cl c.spatialDim y.1.1.total).flatMap
        fun y => (ndindex s).map fun comp => (y.1, timesUnit s comp y.2) := by
    intro L
    rw [List.filter_flatMap, flatMap_filter_ite]
    apply List.flatMap_congr
    intro y _
    rw [List.filter_map]
    by_cases hk : keeps dom cl c.spatialDim y.1.1.total
    · simp [Function.comp_def, hk]
    · simp [Function.comp_def, hk]
  have hbase := (attached_tensorFE φ s tr (dofsOK e hg) hc).filter
    (fun y => keeps dom cl c.spatialDim y.1.1.total)
  rw [hpre] at hbase
  match r, hok with
  | .null, hok =>
    refine ⟨.null, by simp [restrict, hr, bind, Except.bind, pure, Except.pure], ?_⟩
    rw [show (attached φ e).filter _ = [] from hok] at hbase
    exact List.perm_nil.1 hbase
  | .elem e', hok =>
    refine ⟨.elem (.tensorFE e' s tr), by simp [restrict, hr, bind, Except.bind, pure, Except.pure], ?_⟩
    obtain ⟨h1, h2, h3⟩ := okRes_same (f := e) hc hv hok
    rw [show e.cell = .ok c from hc] at h1
    rw [hv] at h2
    refine okRes_single hok.1 id h1 ?_ h3 ?_
    · simp [Elem.valueShape, h2, bind, Except.bind, pure, Except.pure]
    · refine (attached_tensorFE φ s tr (dofsOK e' hok.1) h1).trans (List.Perm.trans ?_ hbase.symm)
      exact hok.2.2.2.2.2.flatMap_right _

theorem stmt_flattened {φ : LeafVals K} {p : Elem} (hS : Stmt φ p) (hg : Good p)
    (hcube : ∀ c, p.cell = .ok c → IsCube c) : Stmt φ (.flattened p) := by
  intro cf vs dom cl hcf hv hd
  have hcf' := hcf
  simp only [Elem.cell, bind_ok] at hcf
  obtain ⟨c, hc, hsel⟩ := hcf
  have hdim : cf.spatialDim = c.spatialDim := by
    split at hsel
    · cases hsel; rename_i h; exact h.symm
    · split at hsel
      · cases hsel; rename_i h; exact h.symm
      · cases hsel
  have hcb := hcube c hc
  obtain ⟨r, hr, hok⟩ := hS c vs dom cl hc hv (hdim ▸ hd)
  have hbase := (attached_flattened φ (dofsOK p hg) hcb hc hcf').filter
    (fun y => keeps dom cl cf.spatialDim y.1.1.total)
  have hcongr : (attached φ p).filter ((fun y => keeps dom cl cf.spatialDim y.1.1.total) ∘ flattenFn p c) =
      (attached φ p).filter fun y => keeps dom cl c.spatialDim y.1.1.total := by
    apply List.filter_congr
    intro y hy
    simp only [Function.comp_def, flattenFn, hdim]
    rw [flat_total hcb hc hcf' (mem_attached hc hy)]
  rw [List.filter_map, hcongr] at hbase
  match r, hok with
  | .null, hok =>
    refine ⟨.null, by simp [restrict, hr, bind, Except.bind, pure, Except.pure], ?_⟩
    rw [show (attached φ p).filter _ = [] from hok] at hbase
    exact List.perm_nil.1 hbase
  | .elem e', hok =>
    obtain ⟨h1, h2, h3⟩ := okRes_same hc hv hok
    rw [hc] at h1
    have h2' : e'.valueShape = .ok vs := h2.trans hv
    have hce : (Elem.flattened e').cell = .ok cf := by
      rw [← hcf']
      simp only [Elem.cell, h1, hc]
    refine ⟨.elem (.flattened e'), by simp [restrict, hr, h1, bind, Except.bind, pure, Except.pure], ?_⟩
    refine okRes_single ⟨hok.1, fun c' h => by rw [h1] at h; cases h; exact hcb⟩ id hce h2' h3 ?_
    refine (attached_flattened φ (dofsOK e' hok.1) hcb h1 hce).trans (List.Perm.trans ?_ hbase.symm)
    have : flattenFn (K := K) e' c = flattenFn p c := by
      have hent : productEnt e' = productEnt p := by
        funext en
        obtain ⟨D, k⟩ := en
        cases D <;> simp [productEnt, unflattenEntity, h1, hc]
      funext y
      simp only [flattenFn, hent]
    rw [this]
    exact hok.2.2.2.2.2.map _

theorem enriched_shapes {es : List Elem} {vs : List Nat} (h : (Elem.enriched es).valueShape = .ok vs) :
    ∀ e ∈ es, e.valueShape = .ok vs := by
  simp only [Elem.valueShape, bind_ok] at h
  obtain ⟨ss, hss, hu⟩ := h
  have hall := (uniqueOf_ok.1 hu).2
  clear hu
  induction es generalizing ss with
  | nil => simp
  | cons e es ih =>
    obtain ⟨s, ss', h1, h2, rfl⟩ := valueShapeL_cons hss
    intro x hx
    rcases List.mem_cons.1 hx with rfl | hx
    · rw [h1, hall s (by simp)]
    · exact ih ss' h2 (fun b hb => hall b (by simp [hb])) x hx

theorem restrictL_ok {φ : LeafVals K} {c : Cell} {vs : List Nat} {dom : Domain} (cl : Bool)
    (hd : DomainOK dom c.spatialDim) : ∀ {es : List Elem}, (∀ e ∈ es, Stmt φ e) → (∀ e ∈ es, e.cell = .ok c) →
    (∀ e ∈ es, e.valueShape = .ok vs) →
    ∃ rs fs, restrictL es dom cl = .ok rs ∧ nonNull rs = some fs ∧
      (∀ f ∈ fs, ∃ e ∈ es, OkRes φ e dom cl c vs (.elem f)) ∧
      (fs.flatMap (attached φ)).Perm
        (es.flatMap fun e => (attached φ e).filter fun y => keeps dom cl c.spatialDim y.1.1.total)
  | [], _, _, _ => ⟨[], [], rfl, rfl, by simp, .nil⟩
  | e :: es, hS, hc, hv => by
    obtain ⟨rs, fs, h1, h2, h3, h4⟩ := restrictL_ok cl hd (es := es) (fun x hx => hS x (by simp [hx]))
      (fun x hx => hc x (by simp [hx])) (fun x hx => hv x (by simp [hx]))
    obtain ⟨r, hr, hok⟩ := hS e (by simp) c vs dom cl (hc e (by simp)) (hv e (by simp)) hd
    have hres : restrictL (e :: es) dom cl = .ok (r :: rs) := by
      simp [restrictL, hr, h1, bind, Except.bind, pure, Except.pure]
    match r, hok with
    | .null, hok =>
      refine ⟨_, fs, hres, by simpa [nonNull] using h2, fun f hf => ?_, ?_⟩
      · obtain ⟨x, hx, h⟩ := h3 f hf
        exact ⟨x, by simp [hx], h⟩
      · rw [List.flatMap_cons, show (attached φ e).filter _ = [] from hok]
        simpa using h4
    | .elem e', hok =>
      refine ⟨_, e' :: fs, hres, by simp [nonNull, h2], fun f hf => ?_, ?_⟩
      · rcases List.mem_cons.1 hf with rfl | hf
        · exact ⟨e, by simp, hok⟩
        · obtain ⟨x, hx, h⟩ := h3 f hf
          exact ⟨x, by simp [hx], h⟩
      · rw [List.flatMap_cons, List.flatMap_cons]
        exact hok.2.2.2.2.2.append h4

theorem uniformL_iff : ∀ {es : List Elem}, UniformL es ↔ ∀ e ∈ es, Uniform e
  | [] => by simp [UniformL]
  | e :: es => by simp [UniformL, uniformL_iff (es := es)]

theorem stmt_enriched {φ : LeafVals K} {es : List Elem} (hS : ∀ e ∈ es, Stmt φ e) (hg : GoodL es)
    (hm : ∀ e ∈ es, isMixedSub e = false) : Stmt φ (.enriched es) := by
  intro c vs dom cl hc hv hd
  obtain ⟨hne, _, _, _, hcells⟩ := enriched_cells hc
  have hvs := enriched_shapes hv
  obtain ⟨rs, fs, h1, h2, h3, h4⟩ := restrictL_ok cl hd hS hcells hvs
  have hall : es.all isMixedSub = false := by
    obtain ⟨e, es', rfl⟩ := List.exists_cons_of_ne_nil hne
    simp [hm e (by simp)]
  have hany : es.any isMixedSub = false := by
    rw [List.any_eq_false]
    intro e he
    simp [hm e he]
  have hperm : (fs.flatMap (attached φ)).Perm
      ((attached φ (.enriched es)).filter fun y => keeps dom cl c.spatialDim y.1.1.total) := by
    refine h4.trans ?_
    refine List.Perm.trans (.of_eq ?_) ((attached_enriched φ (dofsOKL es hg) hc).filter _).symm
    rw [List.filter_flatMap]
  cases fs with
  | nil =>
    refine ⟨.null, ?_, ?_⟩
    · simp only [restrict, hall, hany, h1, h2, bind, Except.bind, pure, Except.pure]
      simp
    · exact List.nil_perm.1 hperm
  | cons f fs' =>
    set fs := f :: fs' with hfs
    have hnefs : fs ≠ [] := by simp [hfs]
    refine ⟨.elem (mkEnriched fs), ?_, ?_⟩
    · simp only [restrict, hall, hany, h1, h2, bind, Except.bind, pure, Except.pure]
      simp
    · have hflat : ∀ f ∈ fs, FlatEnriched f := fun f hf => by
        obtain ⟨e, _, h⟩ := h3 f hf; exact h.2.1
      have hpne : ∀ f ∈ fs, enrichedParts f ≠ [] := fun f hf => by
        obtain ⟨e, _, h⟩ := h3 f hf; exact h.2.2.1
      have hgood : ∀ f ∈ fs, Good f := fun f hf => by
        obtain ⟨e, _, h⟩ := h3 f hf; exact h.1
      have hpc : ∀ f ∈ fs, ∀ p ∈ enrichedParts f, p.cell = .ok c ∧ p.valueShape = .ok vs := fun f hf => by
        obtain ⟨e, _, h⟩ := h3 f hf; exact h.2.2.2.1
      refine ⟨good_mkEnriched hgood, flat_mkEnriched hflat, ?_, ?_, ?_, ?_⟩
      · rw [enrichedParts_mkEnriched hflat, hfs, List.flatMap_cons]
        exact fun h => hpne f (by simp [hfs]) (List.append_eq_nil_iff.1 h).1
      · rw [enrichedParts_mkEnriched hflat]
        intro p hp
        obtain ⟨f, hf, hp⟩ := List.mem_flatMap.1 hp
        exact hpc f hf p hp
      · rw [enrichedParts_mkEnriched hflat]
        intro hu k hk p hp
        obtain ⟨hul, k', m, hkm⟩ := hu
        obtain ⟨e1, e2⟩ := enriched_attrs2 hne hkm
        rw [e1] at hk
        cases hk
        obtain ⟨f, hf, hp⟩ := List.mem_flatMap.1 hp
        obtain ⟨e, he, h⟩ := h3 f hf
        have := h.2.2.2.2.1 (uniformL_iff.1 hul e he) _ (hkm e he).1 p hp
        rw [e2, ← (hkm e he).2]
        exact this
      · exact (attached_mkEnriched φ hnefs hgood hpne fun f hf p hp => (hpc f hf p hp).1).trans hperm

/-! ### H(div) and H(curl) wrappers -/

theorem select_same {fs fs' : List Elem} (h : List.Forall₂ Same fs fs') (hu : UniformL fs) {ks}
    (hk : formdegreeL fs = .ok ks) : selectHdiv fs' = selectHdiv fs ∧ selectHcurl fs' = selectHcurl fs := by
  have hm : (Elem.tensorProduct fs').mapping = (Elem.tensorProduct fs).mapping := by
    simp only [Elem.mapping, (same_forms h hu hk).2]
  have hc : (Elem.tensorProduct fs').cell = (Elem.tensorProduct fs).cell := by
    simp only [Elem.cell, same_cellL h]
  match h with
  | .nil => exact ⟨rfl, rfl⟩
  | .cons _ .nil => exact ⟨rfl, rfl⟩
  | .cons (a := a) (b := a') ha (.cons (a := b) (b := b') hb .nil) =>
    simp only [formdegreeL, bind_ok, pure, Except.pure, Except.ok.injEq] at hk
    obtain ⟨ka, hka, _, ⟨kb, hkb, _⟩, _⟩ := hk
    have h1 := (ha.2.2 hu.1 ka hka).1
    have h2 := (hb.2.2 hu.2.1 kb hkb).1
    constructor
    · simp only [selectHdiv, hb.1, h1, h2, hka, hkb, hm]
    · simp only [selectHcurl, hb.1, h1, h2, hka, hkb, hm, hc]
  | .cons _ (.cons _ (.cons _ _)) => exact ⟨rfl, rfl⟩

theorem mkHDiv_same {fs fs' : List Elem} (h : List.Forall₂ Same fs fs') (hu : UniformL fs)
    (hm : mkHDiv (.tensorProduct fs) = .ok (.hdiv (.tensorProduct fs))) :
    mkHDiv (.tensorProduct fs') = .ok (.hdiv (.tensorProduct fs')) ∧ selectHdiv fs' = selectHdiv fs := by
  simp only [mkHDiv, bind_ok] at hm
  obtain ⟨ks, hks, hm⟩ := hm
  have hs := (select_same h hu hks).1
  refine ⟨?_, hs⟩
  have hc : (Elem.tensorProduct fs').cell = (Elem.tensorProduct fs).cell := by
    simp only [Elem.cell, same_cellL h]
  simp only [mkHDiv, (same_forms h hu hks).1, bind, Except.bind, hc, hs]
  split at hm
  · cases hm
  · rename_i hn
    rw [if_neg hn]
    rw [bind_ok] at hm
    obtain ⟨c, hcc, hm⟩ := hm
    rw [hcc]
    simp only
    split at hm
    · cases hm
    · rename_i hn
      rw [if_neg hn]
      rw [bind_ok] at hm
      obtain ⟨x, hx, _⟩ := hm
      rw [hx]
      rfl

theorem mkHCurl_same {fs fs' : List Elem} (h : List.Forall₂ Same fs fs') (hu : UniformL fs)
    (hm : mkHCurl (.tensorProduct fs) = .ok (.hcurl (.tensorProduct fs))) :
    mkHCurl (.tensorProduct fs') = .ok (.hcurl (.tensorProduct fs')) ∧ selectHcurl fs' = selectHcurl fs := by
  simp only [mkHCurl, bind_ok] at hm
  obtain ⟨ks, hks, hm⟩ := hm
  have hs := (select_same h hu hks).2
  refine ⟨?_, hs⟩
  simp only [mkHCurl, (same_forms h hu hks).1, bind, Except.bind, hs]
  split at hm
  · cases hm
  · rename_i hn
    rw [if_neg hn]
    split at hm
    · cases hm
    · rename_i hn
      rw [if_neg hn]
      rw [bind_ok] at hm
      obtain ⟨x, hx, _⟩ := hm
      rw [hx]
      rfl

theorem wrapRestricted_ok {wrap : Elem → Except Err Elem} {W : Elem → Elem} {ts : List Elem} (hne : ts ≠ [])
    (hts : ∀ t ∈ ts, ¬ IsEnriched t) (hw : ∀ t ∈ ts, wrap t = .ok (W t)) (hW : ∀ t, ¬ IsEnriched (W t)) :
    wrapRestricted wrap (mkEnriched ts) = .ok (.elem (mkEnriched (ts.map W))) := by
  have hpart : ∀ t, ¬ IsEnriched t → enrichedParts t = [t] := by
    intro t ht
    cases t <;> first | rfl | exact absurd trivial ht
  have h1 : ts.flatMap enrichedParts = ts := by
    rw [List.flatMap_congr fun t ht => hpart t (hts t ht)]
    simp
  match ts, hne with
  | [t], _ =>
    have : mkEnriched [t] = t := by unfold mkEnriched; rw [h1]
    rw [this, List.map_cons, List.map_nil]
    have h2 : mkEnriched [W t] = W t := by
      unfold mkEnriched
      rw [show List.flatMap enrichedParts [W t] = [W t] by simp [hpart _ (hW t)]]
    rw [h2]
    have hne : ∀ es, t ≠ .enriched es := fun es he => hts t (by simp) (by rw [he]; trivial)
    unfold wrapRestricted
    split
    · exact absurd rfl (hne _)
    · simp [hw t (by simp), bind, Except.bind, pure, Except.pure]
  | t :: t' :: ts', _ =>
    have : mkEnriched (t :: t' :: ts') = .enriched (t :: t' :: ts') := by unfold mkEnriched; rw [h1]
    rw [this]
    simp only [wrapRestricted]
    rw [mapM_ok hw]
    rfl

/-- Restriction of H(div)/H(curl) wrappers. -/
theorem wrapped_ok {φ : LeafVals K} {fs : List Elem} (wrap : Elem → Except Err Elem) (W : Elem → Elem)
    (sel : List Elem → Except Err (List Comp)) (hS : ∀ f ∈ fs, Stmt φ f) (hg : GoodL fs)
    (hp : ∀ f ∈ fs, ∀ c, f.cell = .ok c → Plain c ∧ c.spatialDim ≤ 4)
    (hshape : ∃ vs, (Elem.tensorProduct fs).valueShape = .ok vs)
    (hW : ∀ t, ¬ IsEnriched (W t)) (hWc : ∀ t, (W t).cell = t.cell)
    (hWv : ∀ t t', t'.cell = t.cell → (W t').valueShape = (W t).valueShape)
    (hWf : ∀ t t', t'.cell = t.cell → (W t').formdegree = (W t).formdegree ∧ (W t').mapping = (W t).mapping)
    (hWg : ∀ t, Good t → Good (W t))
    (hWa : ∀ w, attached φ (W w) = (attached φ w).map fun y => (y.1, placed (sel w.factorsOf) y.2))
    (hsame : ∀ fs', List.Forall₂ Same fs fs' →
      wrap (.tensorProduct fs') = .ok (W (.tensorProduct fs')) ∧ sel fs' = sel fs)
    (hres : ∀ dom cl r, restrict (.tensorProduct fs) dom cl = .ok r → restrict (W (.tensorProduct fs)) dom cl =
      match r with
      | .null => .ok .null
      | .notElem => .error .assertionError
      | .elem e => wrapRestricted wrap e) : Stmt φ (W (.tensorProduct fs)) := by
  intro c vs dom cl hc hv hd
  rw [hWc] at hc
  simp only [Elem.cell, bind_ok, pure, Except.pure, Except.ok.injEq] at hc
  obtain ⟨cs, hcs, rfl⟩ := hc
  obtain ⟨vs0, hv0⟩ := hshape
  simp only [Elem.valueShape, bind_ok] at hv0
  obtain ⟨ss, hss, hvs⟩ := hv0
  have hp' : ∀ c ∈ cs, Plain c ∧ c.spatialDim ≤ 4 := by
    intro c hc
    have := cellL_mem hcs
    clear * - this hc hp
    induction this with
    | nil => simp at hc
    | cons h _ ih =>
      rcases List.mem_cons.1 hc with rfl | hc
      · exact hp _ (by simp) _ h
      · exact ih (fun f hf => hp f (by simp [hf])) hc
  obtain ⟨ts, h1, h2, h3⟩ := tpe_ok φ hS hg hcs hss hvs hp' cl hd
  have hr := hres dom cl _ h1
  have hbase : (attached φ (W (.tensorProduct fs))).filter
      (fun y => keeps dom cl (Cell.prod cs).spatialDim y.1.1.total) =
      ((attached φ (.tensorProduct fs)).filter fun y => keeps dom cl (Cell.spatialDimL cs) y.1.1.total).map
        fun y => (y.1, placed (sel fs) y.2) := by
    rw [hWa, List.filter_map]
    rfl
  by_cases hts : ts = []
  · subst hts
    refine ⟨.null, by simpa using hr, ?_⟩
    show List.filter _ _ = []
    rw [hbase, List.nil_perm.1 h3]
    rfl
  · rw [if_neg hts] at hr
    have hcell : ∀ t ∈ ts, t.cell = (Elem.tensorProduct fs).cell := by
      intro t ht
      obtain ⟨fs', rfl, _, hsm⟩ := h2 t ht
      simp [Elem.cell, same_cellL hsm]
    have hne : ∀ t ∈ ts, ¬ IsEnriched t := by
      intro t ht
      obtain ⟨fs', rfl, _⟩ := h2 t ht
      exact id
    have hwt : ∀ t ∈ ts, wrap t = .ok (W t) := by
      intro t ht
      obtain ⟨fs', rfl, _, hsm⟩ := h2 t ht
      exact (hsame fs' hsm).1
    simp only [wrapRestricted_ok hts hne hwt hW] at hr
    refine ⟨_, hr, ?_⟩
    have hpart : ∀ t ∈ ts.map W, enrichedParts t = [t] := by
      intro t ht
      obtain ⟨u, _, rfl⟩ := List.mem_map.1 ht
      have := hW u
      generalize W u = x at this
      cases x <;> first | rfl | exact absurd trivial this
    have hflat : ∀ t ∈ ts.map W, FlatEnriched t := by
      intro t ht
      obtain ⟨u, _, rfl⟩ := List.mem_map.1 ht
      have := hW u
      generalize W u = x at this
      cases x <;> first | trivial | exact absurd trivial this
    have hparts : (ts.map W).flatMap enrichedParts = ts.map W := by
      rw [List.flatMap_congr hpart]
      simp
    have hgood : ∀ t ∈ ts.map W, Good t := by
      intro t ht
      obtain ⟨u, hu, rfl⟩ := List.mem_map.1 ht
      obtain ⟨fs', rfl, h, _⟩ := h2 u hu
      exact hWg _ h
    have hcellW : ∀ t ∈ ts.map W, t.cell = .ok (.prod cs) := by
      intro t ht
      obtain ⟨u, hu, rfl⟩ := List.mem_map.1 ht
      rw [hWc, hcell u hu]
      simp [Elem.cell, hcs, bind, Except.bind, pure, Except.pure]
    refine ⟨good_mkEnriched hgood, flat_mkEnriched hflat, ?_, ?_, ?_, ?_⟩
    · rw [enrichedParts_mkEnriched hflat, hparts]
      simpa using hts
    · rw [enrichedParts_mkEnriched hflat, hparts]
      intro p hp
      refine ⟨hcellW p hp, ?_⟩
      obtain ⟨u, hu, rfl⟩ := List.mem_map.1 hp
      rw [← hv]
      exact hWv _ _ (hcell u hu)
    · rw [enrichedParts_mkEnriched hflat, hparts]
      intro _ k hk p hp
      obtain ⟨u, hu, rfl⟩ := List.mem_map.1 hp
      rw [← hk]
      exact hWf _ _ (hcell u hu)
    · refine (attached_mkEnriched φ (c := .prod cs) (by simpa using hts) hgood ?_ ?_).trans ?_
      · intro t ht
        rw [hpart t ht]; simp
      · intro t ht p hp
        rw [hpart t ht, List.mem_singleton] at hp
        subst hp
        exact hcellW _ ht
      · rw [hbase, List.flatMap_map]
        refine List.Perm.trans (.of_eq ?_) (h3.map _)
        rw [List.map_flatMap]
        apply List.flatMap_congr
        intro t ht
        rw [hWa]
        obtain ⟨fs', rfl, _, hsm⟩ := h2 t ht
        rw [show (Elem.tensorProduct fs').factorsOf = fs' from rfl, (hsame fs' hsm).2]

/-! ### the induction -/

mutual
theorem restrict_ok {φ : LeafVals K} (hφ : Labelled φ) : ∀ e : Elem, Restrictable e → Stmt φ e
  | .leaf l, h => stmt_leaf hφ h
  | .tensorProduct fs, h =>
    stmt_tensorProduct φ (restrictable_ok hφ fs h.2.1) (RestrictableL.good fs h.2.1) h.2.2
  | .flattened p, h => stmt_flattened (restrict_ok hφ p h.1) (Restrictable.good p h.1) h.2
  | .enriched es, h => stmt_enriched (restrictable_ok hφ es h.1) (RestrictableL.good es h.1) h.2
  | .mixedSub _ _ _, h => False.elim h
  | .discontinuous e, h => stmt_discontinuous (by simpa only [Restrictable] using h)
  | .tensorFE e s tr, h => stmt_tensorFE s tr (restrict_ok hφ e h) (Restrictable.good e h)
  | .hdiv (.tensorProduct fs), h => by
    refine wrapped_ok mkHDiv .hdiv selectHdiv (restrictable_ok hφ fs h.2.1.2.1)
      (RestrictableL.good fs h.2.1.2.1) h.2.1.2.2 h.2.2.2.1 (fun _ => id) (fun _ => rfl) ?_ ?_ (fun _ h => h)
      (attached_hdiv φ) (fun fs' hs => mkHDiv_same hs h.2.2.1 h.2.2.2.2) ?_
    · intro t t' ht
      simp only [Elem.valueShape, ht]
    · intro t t' ht
      simp only [Elem.formdegree, Elem.mapping, ht, and_self]
    · intro dom cl r hr
      rw [restrict, hr]
      cases r <;> rfl
  | .hdiv (.leaf _), h => by obtain ⟨⟨_, h⟩, _⟩ := h; cases h
  | .hdiv (.flattened _), h => by obtain ⟨⟨_, h⟩, _⟩ := h; cases h
  | .hdiv (.enriched _), h => by obtain ⟨⟨_, h⟩, _⟩ := h; cases h
  | .hdiv (.mixedSub _ _ _), h => by obtain ⟨⟨_, h⟩, _⟩ := h; cases h
  | .hdiv (.discontinuous _), h => by obtain ⟨⟨_, h⟩, _⟩ := h; cases h
  | .hdiv (.tensorFE _ _ _), h => by obtain ⟨⟨_, h⟩, _⟩ := h; cases h
  | .hdiv (.hdiv _), h => by obtain ⟨⟨_, h⟩, _⟩ := h; cases h
  | .hdiv (.hcurl _), h => by obtain ⟨⟨_, h⟩, _⟩ := h; cases h
  | .hdiv (.quadrature _ _ _), h => by obtain ⟨⟨_, h⟩, _⟩ := h; cases h
  | .hcurl (.tensorProduct fs), h => by
    refine wrapped_ok mkHCurl .hcurl selectHcurl (restrictable_ok hφ fs h.2.1.2.1)
      (RestrictableL.good fs h.2.1.2.1) h.2.1.2.2 h.2.2.2.1 (fun _ => id) (fun _ => rfl) ?_ ?_ (fun _ h => h)
      (attached_hcurl φ) (fun fs' hs => mkHCurl_same hs h.2.2.1 h.2.2.2.2) ?_
    · intro t t' ht
      simp only [Elem.valueShape, ht]
    · intro t t' ht
      simp only [Elem.formdegree, Elem.mapping, and_self]
    · intro dom cl r hr
      rw [restrict, hr]
      cases r <;> rfl
  | .hcurl (.leaf _), h => by obtain ⟨⟨_, h⟩, _⟩ := h; cases h
  | .hcurl (.flattened _), h => by obtain ⟨⟨_, h⟩, _⟩ := h; cases h
  | .hcurl (.enriched _), h => by obtain ⟨⟨_, h⟩, _⟩ := h; cases h
  | .hcurl (.mixedSub _ _ _), h => by obtain ⟨⟨_, h⟩, _⟩ := h; cases h
  | .hcurl (.discontinuous _), h => by obtain ⟨⟨_, h⟩, _⟩ := h; cases h
  | .hcurl (.tensorFE _ _ _), h => by obtain ⟨⟨_, h⟩, _⟩ := h; cases h
  | .hcurl (.hdiv _), h => by obtain ⟨⟨_, h⟩, _⟩ := h; cases h
  | .hcurl (.hcurl _), h => by obtain ⟨⟨_, h⟩, _⟩ := h; cases h
  | .hcurl (.quadrature _ _ _), h => by obtain ⟨⟨_, h⟩, _⟩ := h; cases h
  | .quadrature _ _ _, h => False.elim h
theorem restrictable_ok {φ : LeafVals K} (hφ : Labelled φ) : ∀ es : List Elem, RestrictableL es → ∀ e ∈ es, Stmt φ e
  | [], _, _, he => by simp at he
  | e :: es, h, e', he => by
    have h1 := restrict_ok hφ e h.1
    have h2 := restrictable_ok hφ es h.2
    rcases List.mem_cons.1 he with rfl | he
    · exact h1
    · exact h2 e' he
end

end FInAT
