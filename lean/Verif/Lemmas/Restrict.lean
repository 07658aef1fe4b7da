import Verif.Lemmas.RestrictTP

/-! # Restriction: the induction over element trees -/

namespace FInAT

open Spec Elem

variable {K : Type} [CommRing K]

/-- Same cell, value shape and, for uniform elements, form degree and mapping. -/
def Same (f f' : Elem) : Prop :=
  f'.cell = f.cell ∧ f'.valueShape = f.valueShape ∧
    (Uniform f → ∀ k, f.formdegree = .ok k → f'.formdegree = .ok k ∧ f'.mapping = f.mapping)

theorem same_cellL {fs fs' : List Elem} (h : List.Forall₂ Same fs fs') : cellL fs' = cellL fs := by
  induction h with
  | nil => rfl
  | cons h _ ih => simp only [cellL, h.1, ih]

theorem same_valueShapeL {fs fs' : List Elem} (h : List.Forall₂ Same fs fs') :
    valueShapeL fs' = valueShapeL fs := by
  induction h with
  | nil => rfl
  | cons h _ ih => simp only [valueShapeL, h.2.1, ih]

theorem same_forms {fs fs' : List Elem} (h : List.Forall₂ Same fs fs') :
    ∀ {ks}, UniformL fs → formdegreeL fs = .ok ks → formdegreeL fs' = .ok ks ∧ mappingL fs' = mappingL fs := by
  induction h with
  | nil => intro ks _ h; exact ⟨h, rfl⟩
  | cons h _ ih =>
    intro ks hu hk
    simp only [formdegreeL, bind_ok, pure, Except.pure, Except.ok.injEq] at hk
    obtain ⟨k, hk, ks', hks, rfl⟩ := hk
    obtain ⟨h1, h2⟩ := h.2.2 hu.1 k hk
    obtain ⟨h3, h4⟩ := ih hu.2 hks
    simp [formdegreeL, h1, h3, bind, Except.bind, pure, Except.pure, mappingL, h2, h4]

theorem okRes_same {φ : LeafVals K} {f e' : Elem} {dom : Domain} {cl : Bool} {c : Cell} {vs : List Nat}
    (hc : f.cell = .ok c) (hv : f.valueShape = .ok vs) (h : OkRes φ f dom cl c vs (.elem e')) : Same f e' := by
  obtain ⟨_, _, hne, hp, hu, _⟩ := h
  obtain ⟨h1, h2⟩ := parts_attrs hne hp
  exact ⟨h1.trans hc.symm, h2.trans hv.symm, fun hun k hk => parts_attrs2 hne (hu hun k hk)⟩

/-- The functions of a factor attached to entities of codimension `k`. -/
def codimFns (φ : LeafVals K) (f : Elem) (k : Nat) : List ((Dim × Nat) × BFun K) :=
  (attached φ f).filter fun y => decide (sdim f - y.1.1.total = k)

theorem restrictFactors_ok (φ : LeafVals K) : ∀ {fs : List Elem} {δ : List Nat} {cs : List Cell}
    {ss : List (List Nat)}, cellL fs = .ok cs → valueShapeL fs = .ok ss → (∀ f ∈ fs, Stmt φ f) →
    (∀ c ∈ cs, Plain c ∧ c.spatialDim ≤ 4) →
    List.Forall₂ (fun (k : Nat) (c : Cell) => k ≤ c.spatialDim) δ cs →
    ∃ rs, restrictFactors fs (δ.map Int.ofNat) = .ok rs ∧
      ((allFactors rs = none ∧ product (List.zipWith (codimFns φ) fs δ) = []) ∨
       (allFactors rs = some rs ∧ ∃ fs', nonNull rs = some fs' ∧ List.Forall₂ Same fs fs' ∧ GoodL fs' ∧
        List.Forall₂ List.Perm (fs'.map (attached φ)) (List.zipWith (codimFns φ) fs δ)))
  | [], [], cs, ss, _, _, _, _, _ =>
    ⟨[], rfl, Or.inr ⟨rfl, [], rfl, .nil, trivial, .nil⟩⟩
  | [], _ :: _, cs, ss, hc, _, _, _, hf => by
    simp only [cellL, Except.ok.injEq] at hc; subst hc; cases hf
  | _ :: _, [], cs, ss, hc, _, _, _, hf => by
    obtain ⟨c, cs', _, _, rfl⟩ := cellL_cons hc; cases hf
  | f :: fs, k :: δ, cs, ss, hc, hs, hS, hp, hf => by
    obtain ⟨c, cs', h1, h2, rfl⟩ := cellL_cons hc
    obtain ⟨s, ss', h3, h4, rfl⟩ := valueShapeL_cons hs
    obtain ⟨hk, hf'⟩ := List.forall₂_cons.1 hf
    obtain ⟨rs, hrs, hor⟩ := restrictFactors_ok φ (fs := fs) (δ := δ) h2 h4 (fun x hx => hS x (by simp [hx]))
      (fun x hx => hp x (by simp [hx])) hf'
    obtain ⟨hpl, h4'⟩ := hp c (by simp)
    obtain ⟨dom, hdom, hdok, hkeep⟩ := codimToR_ok hk h4'
    obtain ⟨r, hr, hok⟩ := hS f (by simp) c s dom false h1 h3 hdok
    have hfil : (attached φ f).filter (fun y => keeps dom false c.spatialDim y.1.1.total) = codimFns φ f k := by
      apply List.filter_congr
      intro y hy
      rw [hkeep _ (total_of_mem_entities (mem_attached h1 hy)), sdim_eq h1]
    refine ⟨r :: rs, ?_, ?_⟩
    · simp only [List.map_cons, restrictFactors, h1, bind, Except.bind, (plain_top hpl).2.2, Int.ofNat_eq_natCast,
        hdom, hr, pure, Except.pure]
      simp [hrs]
    · match r, hok with
      | .null, hok =>
        left
        refine ⟨rfl, ?_⟩
        rw [List.zipWith_cons_cons, product_cons, ← hfil, show (attached φ f).filter _ = [] from hok]
        rfl
      | .elem e', hok =>
        rcases hor with ⟨ha, hpr⟩ | ⟨ha, fs', hn, hsame, hgood, hperm⟩
        · left
          refine ⟨by simp [allFactors, ha], ?_⟩
          rw [List.zipWith_cons_cons, product_cons, hpr]
          simp
        · right
          refine ⟨by simp [allFactors, ha], e' :: fs', by simp [nonNull, hn], .cons (okRes_same h1 h3 hok) hsame,
            ⟨hok.1, hgood⟩, ?_⟩
          rw [List.zipWith_cons_cons, List.map_cons, ← hfil]
          exact .cons hok.2.2.2.2.2 hperm

theorem zip_codims {cs : List Cell} : ∀ {fs : List Elem} {t : List ((Dim × Nat) × BFun K)} {φ : LeafVals K},
    cellL fs = .ok cs → t ∈ product (fs.map (attached φ)) →
    (List.zipWith (fun f y => sdim f - y.1.1.total) fs t).sum + Dim.totalL ((t.map Prod.fst).map Prod.fst) =
      Cell.spatialDimL cs ∧
    List.Forall₂ (fun (k : Nat) (c : Cell) => k ≤ c.spatialDim)
      (List.zipWith (fun f y => sdim f - y.1.1.total) fs t) cs := by
  induction cs with
  | nil =>
    intro fs t φ hc ht
    cases fs with
    | nil => simp only [List.map_nil, product_nil, List.mem_singleton] at ht; subst ht; exact ⟨rfl, .nil⟩
    | cons f fs => obtain ⟨_, _, _, _, h⟩ := cellL_cons hc; cases h
  | cons c cs ih =>
    intro fs t φ hc ht
    cases fs with
    | nil => simp [cellL] at hc
    | cons f fs =>
      obtain ⟨c', cs', h1, h2, h⟩ := cellL_cons hc
      cases h
      rw [List.map_cons, product_cons] at ht
      obtain ⟨y, hy, ht⟩ := List.mem_flatMap.1 ht
      obtain ⟨u, hu, rfl⟩ := List.mem_map.1 ht
      obtain ⟨i1, i2⟩ := ih h2 hu
      have := total_of_mem_entities (mem_attached h1 hy)
      refine ⟨?_, ?_⟩
      · simp only [List.zipWith_cons_cons, List.sum_cons, List.map_cons, Dim.totalL, Cell.spatialDimL, sdim_eq h1]
        omega
      · rw [List.zipWith_cons_cons, sdim_eq h1]
        exact .cons (by omega) i2

/-- Restriction of a tensor product element. -/
theorem tpe_ok (φ : LeafVals K) {fs : List Elem} {cs : List Cell} {ss : List (List Nat)} {vs : List Nat}
    (hS : ∀ f ∈ fs, Stmt φ f) (hg : GoodL fs) (hcs : cellL fs = .ok cs) (hss : valueShapeL fs = .ok ss)
    (hvs : prodValueShape ss = .ok vs) (hp : ∀ c ∈ cs, Plain c ∧ c.spatialDim ≤ 4) {dom : Domain} (cl : Bool)
    (hd : DomainOK dom (Cell.spatialDimL cs)) :
    ∃ ts, restrict (.tensorProduct fs) dom cl = .ok (if ts = [] then .null else .elem (mkEnriched ts)) ∧
      (∀ t ∈ ts, ∃ fs', t = .tensorProduct fs' ∧ GoodL fs' ∧ List.Forall₂ Same fs fs') ∧
      (ts.flatMap (attached φ)).Perm ((attached φ (.tensorProduct fs)).filter
        fun y => keeps dom cl (Cell.spatialDimL cs) y.1.1.total) := by
  obtain ⟨D, hD, hnd, hmem⟩ := decompositions_ok (fun c hc => (hp c hc).1) cl hd
  set comb := combine (K := K) cs (fs.map fun f => (sdim f, (vshape f).length)) with hcomb
  let R : List Nat → Option Elem → Prop := fun δ o =>
    (o = none ∧ product (List.zipWith (codimFns φ) fs δ) = []) ∨
    ∃ fs', o = some (.tensorProduct fs') ∧ GoodL fs' ∧ List.Forall₂ Same fs fs' ∧
      (attached φ (.tensorProduct fs')).Perm ((product (List.zipWith (codimFns φ) fs δ)).map comb)
  have hbody : ∀ δ ∈ D, ∃ o, (do
      let rs ← restrictFactors fs (δ.map Int.ofNat)
      restrictedProduct rs) = .ok o ∧ R δ o := by
    intro δ hδ
    obtain ⟨rs, hrs, hor⟩ := restrictFactors_ok φ hcs hss hS hp ((hmem δ).1 hδ).1
    simp only [hrs, bind, Except.bind]
    rcases hor with ⟨ha, hpr⟩ | ⟨ha, fs', hn, hsame, hgood, hperm⟩
    · exact ⟨none, by simp [restrictedProduct, ha], Or.inl ⟨rfl, hpr⟩⟩
    · refine ⟨some (.tensorProduct fs'), ?_, Or.inr ⟨fs', rfl, hgood, hsame, ?_⟩⟩
      · simp [restrictedProduct, ha, hn, mkTensorProduct, same_valueShapeL hsame, hss, hvs, bind, Except.bind, pure,
          Except.pure]
      · refine (attached_tensorProduct φ (dofsOKL _ hgood) ((same_cellL hsame).trans hcs)).trans ?_
        have : (fs'.map fun f => (sdim f, (vshape f).length)) = fs.map fun f => (sdim f, (vshape f).length) := by
          clear * - hsame
          induction hsame with
          | nil => rfl
          | cons h _ ih =>
            rw [List.map_cons, List.map_cons, ih]
            simp [sdim, vshape, h.1, h.2.1]
        rw [this]
        exact (product_perm hperm).map _
  have hM : ∃ ys, (D.map (List.map Int.ofNat)).mapM (fun δ => do
      let rs ← restrictFactors fs δ
      restrictedProduct rs) = .ok ys ∧ List.Forall₂ R D ys := by
    clear * - hbody
    induction D with
    | nil => exact ⟨[], rfl, .nil⟩
    | cons δ D ih =>
      obtain ⟨o, ho, hr⟩ := hbody δ (by simp)
      obtain ⟨ys, hys, hrs⟩ := ih fun x hx => hbody x (by simp [hx])
      refine ⟨o :: ys, ?_, .cons hr hrs⟩
      rw [List.map_cons, List.mapM_cons]
      simp only [hys, bind, Except.bind, pure, Except.pure] at ho hys ⊢
      rw [ho]
  obtain ⟨ys, hys, hR⟩ := hM
  refine ⟨ys.filterMap id, ?_, ?_, ?_⟩
  · simp only [restrict, hcs, hD, bind, Except.bind, pure, Except.pure] at hys ⊢
    rw [hys]
    simp only
    split <;> rfl
  · intro t ht
    obtain ⟨o, ho, hot⟩ := List.mem_filterMap.1 ht
    simp only [id_eq] at hot
    subst hot
    clear * - hR ho
    induction hR with
    | nil => simp at ho
    | cons h _ ih =>
      rcases List.mem_cons.1 ho with rfl | ho
      · rcases h with ⟨h, _⟩ | ⟨fs', h, h1, h2, _⟩
        · cases h
        · cases h
          exact ⟨fs', rfl, h1, h2⟩
      · exact ih ho
  · have h1 : ((ys.filterMap id).flatMap (attached φ)).Perm
        ((D.flatMap fun δ => product (List.zipWith (codimFns φ) fs δ)).map comb) := by
      clear * - hR
      induction hR with
      | nil => simp
      | cons h _ ih =>
        simp only [List.flatMap_cons, List.map_append]
        rcases h with ⟨rfl, h⟩ | ⟨fs', rfl, _, _, h⟩
        · rw [h]
          simpa using ih
        · simpa using h.append ih
    refine h1.trans ?_
    have h2 : (D.flatMap fun δ => product (List.zipWith (codimFns φ) fs δ)) =
        D.flatMap fun δ => (product (fs.map (attached φ))).filter fun t =>
          decide (List.zipWith (fun f y => sdim f - y.1.1.total) fs t = δ) := by
      apply List.flatMap_congr
      intro δ hδ
      have hl : δ.length = fs.length := by
        rw [((hmem δ).1 hδ).1.length_eq, (cellL_mem hcs).length_eq]
      exact product_filter (attached φ) (fun f y => sdim f - y.1.1.total) fs δ hl
    rw [h2]
    refine ((flatMap_fibres _ hnd).map comb).trans ?_
    refine List.Perm.trans (.of_eq ?_)
      ((attached_tensorProduct φ (dofsOKL _ hg) hcs).filter _).symm
    rw [List.filter_map]
    congr 1
    apply List.filter_congr
    intro t ht
    obtain ⟨z1, z2⟩ := zip_codims hcs ht
    have : (combine cs (fs.map fun f => (sdim f, (vshape f).length)) t).1.1.total =
        Dim.totalL ((t.map Prod.fst).map Prod.fst) := rfl
    simp only [Function.comp_def, this]
    rw [show Dim.totalL ((t.map Prod.fst).map Prod.fst) = Cell.spatialDimL cs -
      (List.zipWith (fun f y => sdim f - y.1.1.total) fs t).sum by omega]
    rw [Bool.eq_iff_iff, decide_eq_true_eq, hmem]
    exact and_iff_right z2

theorem stmt_tensorProduct (φ : LeafVals K) {fs : List Elem} (hS : ∀ f ∈ fs, Stmt φ f) (hg : GoodL fs)
    (hp : ∀ f ∈ fs, ∀ c, f.cell = .ok c → Plain c ∧ c.spatialDim ≤ 4) : Stmt φ (.tensorProduct fs) := by
  intro c vs dom cl hc hv hd
  simp only [Elem.cell, bind_ok, pure, Except.pure, Except.ok.injEq] at hc
  obtain ⟨cs, hcs, rfl⟩ := hc
  simp only [Elem.valueShape, bind_ok] at hv
  obtain ⟨ss, hss, hvs⟩ := hv
  have hp' : ∀ c ∈ cs, Plain c ∧ c.spatialDim ≤ 4 := by
    intro c hc
    have := cellL_mem hcs
    clear * - this hc hp
    induction this with
    | nil => simp at hc
    | cons h _ ih =>
      rcases List.mem_cons.1 hc with rfl | hc
      · exact hp _ (by simp) _ h
      · exact ih (fun f hf => hp f (by simp [hf])) hc
  obtain ⟨ts, h1, h2, h3⟩ := tpe_ok φ hS hg hcs hss hvs hp' cl hd
  refine ⟨_, h1, ?_⟩
  by_cases hts : ts = []
  · rw [if_pos hts]
    subst hts
    exact (List.nil_perm.1 h3)
  · rw [if_neg hts]
    have hflat : ∀ t ∈ ts, FlatEnriched t := by
      intro t ht
      obtain ⟨fs', rfl, _⟩ := h2 t ht
      trivial
    have hparts : ts.flatMap enrichedParts = ts := by
      have : ∀ t ∈ ts, enrichedParts t = [t] := by
        intro t ht
        obtain ⟨fs', rfl, _⟩ := h2 t ht
        rfl
      rw [List.flatMap_congr this]
      simp
    have hcell : ∀ t ∈ ts, t.cell = .ok (.prod cs) ∧ t.valueShape = .ok vs := by
      intro t ht
      obtain ⟨fs', rfl, _, hsame⟩ := h2 t ht
      simp [Elem.cell, Elem.valueShape, same_cellL hsame, same_valueShapeL hsame, hcs, hss, hvs, bind, Except.bind,
        pure, Except.pure]
    have hgood : ∀ t ∈ ts, Good t := by
      intro t ht
      obtain ⟨fs', rfl, h, _⟩ := h2 t ht
      exact h
    refine ⟨good_mkEnriched hgood, flat_mkEnriched hflat, ?_, ?_, ?_, ?_⟩
    · rw [enrichedParts_mkEnriched hflat, hparts]; exact hts
    · rw [enrichedParts_mkEnriched hflat, hparts]; exact hcell
    · rw [enrichedParts_mkEnriched hflat, hparts]
      intro hu k hk t ht
      obtain ⟨fs', rfl, _, hsame⟩ := h2 t ht
      simp only [Elem.formdegree, bind_ok] at hk
      obtain ⟨ks, hks, hk⟩ := hk
      obtain ⟨f1, f2⟩ := same_forms hsame hu hks
      refine ⟨?_, ?_⟩
      · simp only [Elem.formdegree, f1, bind, Except.bind]
        exact hk
      · simp only [Elem.mapping, f2]
    · refine (attached_mkEnriched φ (c := .prod cs) hts hgood ?_ ?_).trans h3
      · intro t ht
        obtain ⟨fs', rfl, _⟩ := h2 t ht
        simp [enrichedParts]
      · intro t ht p hp
        have hpt : p = t := by
          obtain ⟨fs', rfl, _⟩ := h2 t ht
          simpa [enrichedParts] using hp
        rw [hpt]
        exact (hcell t ht).1

end FInAT
