import Verif.Spec.FiatEquivalent
import Verif.Lemmas.Interpolate
import Verif.Props.Tabulation

/-!
# FIAT equivalents
-/

namespace FInAT

open Spec Elem Props

variable {K : Type} [CommRing K] {φ : LeafVals K} {ψ : FiatVals K} {runtime : Nat → Bool}

theorem ravel_single (n k : Nat) : ravel [n] [k] = k := by simp [ravel]

/-- The functions of a sum. -/
theorem fiatSum_eq {c : Cell} {vs : List Nat} : ∀ (es : List Elem) (ts : List FTree),
    List.Forall₂ (fun e t => Equivalent φ ψ e c vs t) es ts → FTree.sizes ψ ts = (Elem.spaceDimL es).sum ∧
    ∀ α x k z, α.length = c.spatialDim → x.length = c.spatialDim → k < (Elem.spaceDimL es).sum → InRange z vs →
      fiatSum ψ ts α x k z = sumValue φ es α (c.dimension, 0) x k z
  | _, _, .nil => ⟨rfl, fun α x k z _ _ hk => by simp [Elem.spaceDimL] at hk⟩
  | _, _, .cons (a := e) (b := t) (l₁ := es) (l₂ := ts) h hs => by
    obtain ⟨h1, h2⟩ := fiatSum_eq es ts hs
    refine ⟨by simp [FTree.sizes, Elem.spaceDimL, h.size, h1], fun α x k z hα hx hk hz => ?_⟩
    simp only [fiatSum, sumValue, h.size]
    split
    · next hlt =>
      have hb : k < e.indexShape.prod := by rw [Elem.indexShape_prod]; exact hlt
      rw [← h.value α x _ z hα hx (unravel_bounds hb) hz, ravel_unravel hb]
    · next hge =>
      refine h2 α x _ z hα hx ?_ hz
      simp only [Elem.spaceDimL, List.sum_cons] at hk
      omega

/-- Parts use the components from their offset on only. -/
theorem laidOut_zero {size : Nat} (α : List Nat) (ent : Dim × Nat) (x : List K) (j : Nat) : ∀ (es : List Elem) (o k : Nat),
    LaidOut size o es → j < o → sumValue φ es α ent x k [j] = 0
  | [], _, _, _, _ => rfl
  | .mixedSub e n m :: es, o, k, hl, hj => by
    simp only [LaidOut] at hl
    obtain ⟨_, rfl, hl⟩ := hl
    simp only [sumValue, basisValue, List.headD_cons]
    split
    · exact if_neg (fun h => Nat.not_le_of_lt hj h.1)
    · exact laidOut_zero α ent x j es _ _ hl (by omega)
  | .leaf _ :: _, _, _, hl, _ => by simp [LaidOut] at hl
  | .tensorProduct _ :: _, _, _, hl, _ => by simp [LaidOut] at hl
  | .flattened _ :: _, _, _, hl, _ => by simp [LaidOut] at hl
  | .enriched _ :: _, _, _, hl, _ => by simp [LaidOut] at hl
  | .discontinuous _ :: _, _, _, hl, _ => by simp [LaidOut] at hl
  | .tensorFE _ _ _ :: _, _, _, hl, _ => by simp [LaidOut] at hl
  | .hdiv _ :: _, _, _, hl, _ => by simp [LaidOut] at hl
  | .hcurl _ :: _, _, _, hl, _ => by simp [LaidOut] at hl
  | .quadrature _ _ _ :: _, _, _, hl, _ => by simp [LaidOut] at hl

/-- The functions of a mixed element. -/
theorem fiatMixed_eq {c : Cell} {size : Nat} : ∀ (es : List Elem) (ts : List FTree) (o : Nat),
    List.Forall₂ (fun e t => ∃ f n m vs, e = .mixedSub f n m ∧ f.valueShape = .ok vs ∧ Equivalent φ ψ f c vs t) es ts →
    LaidOut size o es → FTree.sizes ψ ts = (Elem.spaceDimL es).sum ∧ o + FTree.components ts = size ∧
    ∀ α x k j, α.length = c.spatialDim → x.length = c.spatialDim → k < (Elem.spaceDimL es).sum → o ≤ j → j < size →
      fiatMixed ψ ts α x k (j - o) = sumValue φ es α (c.dimension, 0) x k [j]
  | _, _, o, .nil, hl => by
    simp only [LaidOut] at hl
    exact ⟨rfl, by simp [FTree.components, hl], fun α x k z _ _ hk => by simp [Elem.spaceDimL] at hk⟩
  | _, _, o, .cons (l₁ := es) (l₂ := ts) (b := t) h hs, hl => by
    obtain ⟨f, n, m, vs, rfl, hv, h⟩ := h
    simp only [LaidOut, vshape_eq hv] at hl
    obtain ⟨rfl, rfl, hl⟩ := hl
    obtain ⟨h1, h2, h3⟩ := fiatMixed_eq es ts _ hs hl
    refine ⟨by simp [FTree.sizes, Elem.spaceDimL, Elem.spaceDim, h.size, h1],
      by simp only [FTree.components, h.shape]; omega, fun α x k j hα hx hk hj hj2 => ?_⟩
    simp only [fiatMixed, sumValue, h.size, h.shape, Elem.spaceDim, Elem.indexShape, basisValue, List.headD_cons, vshape_eq hv]
    split
    · next hlt =>
      have hb : k < f.indexShape.prod := by rw [Elem.indexShape_prod]; exact hlt
      by_cases hlt2 : j - m < vs.prod
      · rw [if_pos hlt2, if_pos ⟨hj, by omega⟩, ← h.value α x _ _ hα hx (unravel_bounds hb) (unravel_bounds hlt2), ravel_unravel hb]
      · rw [if_neg hlt2, if_neg (by omega)]
    · next hge =>
      simp only [Elem.spaceDimL, Elem.spaceDim, List.sum_cons] at hk
      by_cases hlt2 : j - m < vs.prod
      · rw [if_pos hlt2]
        exact (laidOut_zero α _ x j es _ _ hl (by omega)).symm
      · rw [if_neg hlt2, ← h3 α x _ j hα hx (by omega) (by omega) hj2, Nat.sub_sub]

theorem wrap_congr {comps : List Comp} {sel : Except Err (List Comp)} {vs : List Nat} {F G : List Nat → K} (h1 : sel = .ok comps)
    (h6 : ∀ neg ix, Comp.entry neg ix ∈ comps → InB ix vs) (h : ∀ ix, InRange ix vs → F ix = G ix) (j : Nat) :
    wrapValue sel F j = wrapValue sel G j := by
  subst h1
  simp only [wrapValue]
  cases hj : comps[j]? with
  | none => rfl
  | some cc =>
    cases cc with
    | zero => rfl
    | entry neg ix =>
      have := h ix (h6 neg ix (List.mem_of_getElem? hj))
      cases neg <;> simp [compValue, this]

theorem fiatEquivalents_length : ∀ (es : List Elem) (ts : List FTree), fiatEquivalents runtime es = .ok ts →
    List.Forall₂ (fun e t => fiatEquivalent runtime e = .ok t) es ts
  | [], ts, h => by simp only [fiatEquivalents, Except.ok.injEq] at h; subst h; exact .nil
  | e :: es, ts, h => by
    simp only [fiatEquivalents] at h
    obtain ⟨t, ht, h⟩ := bind_ok.1 h
    obtain ⟨ts', hts, h⟩ := bind_ok.1 h
    cases h
    exact .cons ht (fiatEquivalents_length es ts' hts)

theorem forall₂_mem {A B : Type} {R S : A → B → Prop} {as : List A} {bs : List B} (h : List.Forall₂ R as bs)
    (hi : ∀ a ∈ as, ∀ b, R a b → S a b) : List.Forall₂ S as bs := by
  induction h with
  | nil => exact .nil
  | cons h _ ih => exact .cons (hi _ List.mem_cons_self _ h) (ih fun a ha => hi a (List.mem_cons_of_mem _ ha))

theorem enriched_ne_nil {es : List Elem} {c : Cell} (h : (Elem.enriched es).cell = .ok c) : es ≠ [] := by
  rintro rfl
  simp [Elem.cell, Elem.cellL, uniqueOf, bind, Except.bind] at h

mutual
theorem equivalent : ∀ (e : Elem) (c : Cell) (vs : List Nat) (t : FTree), Shaped e → SameParts φ ψ runtime e →
    e.cell = .ok c → e.valueShape = .ok vs → fiatEquivalent runtime e = .ok t → Equivalent φ ψ e c vs t
  | .leaf l, c, vs, t, _, h, hc, hv, ht => by
    simp only [SameParts] at h
    simp only [Elem.cell, Except.ok.injEq] at hc
    simp only [Elem.valueShape, Except.ok.injEq] at hv
    simp only [fiatEquivalent, Except.ok.injEq] at ht
    subst hc hv ht
    refine ⟨rfl, by simp [FTree.size, h.1, Elem.spaceDim], rfl, fun α x i z hα hx hi hz => ?_⟩
    simp only [Elem.indexShape] at hi
    cases hi with
    | @cons k _ r _ hk hr =>
    cases hr
    simp only [fiatValue, basisValue, Elem.indexShape, ravel_single]
    exact h.2 α x k z hk
  | .quadrature r c' ext, c, vs, t, _, h, hc, hv, ht => by
    simp only [SameParts] at h
    simp only [Elem.cell, Except.ok.injEq] at hc
    simp only [Elem.valueShape, Except.ok.injEq] at hv
    simp only [fiatEquivalent] at ht
    split at ht
    · cases ht
    · cases ht
      subst hc hv
      refine ⟨rfl, rfl, rfl, fun α x i z hα hx hi hz => ?_⟩
      simp only [fiatValue, basisValue, Elem.indexShape]
      exact h x i hi
  | .tensorProduct fs, c, vs, t, hs, h, hc, hv, ht => by
    simp only [SameParts] at h
    rw [Shaped] at hs
    simp only [Elem.cell] at hc
    obtain ⟨cs, hcs, hc⟩ := bind_ok.1 hc
    cases hc
    simp only [Elem.valueShape] at hv
    obtain ⟨ss, hss, hpv⟩ := bind_ok.1 hv
    have hfl := prodValueShape_flatten hpv
    subst hfl
    simp only [fiatEquivalent] at ht
    split at ht
    · obtain ⟨ts, hts, ht⟩ := bind_ok.1 ht
      have hF := equivalentL fs hs.2 h ts hts
      next hlen =>
      match fs, hlen with
      | [a, b], _ =>
        simp only [Elem.cellL] at hcs
        obtain ⟨ca, hca, hcs⟩ := bind_ok.1 hcs
        obtain ⟨l, hcs', hcs⟩ := bind_ok.1 hcs
        obtain ⟨cb, hcb, hcs'⟩ := bind_ok.1 hcs'
        cases hcs'
        cases hcs
        simp only [Elem.valueShapeL] at hss
        obtain ⟨va, hva, hss⟩ := bind_ok.1 hss
        obtain ⟨l, hss', hss⟩ := bind_ok.1 hss
        obtain ⟨vb, hvb, hss'⟩ := bind_ok.1 hss'
        cases hss'
        cases hss
        cases hF with
        | @cons _ ta _ _ h1 hF =>
        cases hF with
        | @cons _ tb _ _ h2 hF =>
        cases hF
        cases ht
        have h1 := h1 ca va hca hva
        have h2 := h2 cb vb hcb hvb
        refine ⟨by simp [FTree.dim, h1.dim, h2.dim, Cell.spatialDim, Cell.spatialDimL],
          by simp [FTree.size, h1.size, h2.size, Elem.spaceDim, Elem.spaceDimL],
          by simp [FTree.shape, h1.shape, h2.shape], fun α x i z hα hx hi hz => ?_⟩
        simp only [Elem.indexShape, Elem.indexShapeL, List.flatten_cons, List.flatten_nil, List.append_nil] at hi hz ⊢
        have hi : InB i _ := hi
        have hz : InB z _ := hz
        have hcl : Elem.cellL [a, b] = .ok [ca, cb] := by
          simp [Elem.cellL, hca, hcb, bind, Except.bind, pure, Except.pure]
        simp only [fiatValue, basisValue, factorEnts_cell hcl, List.map_cons, List.map_nil, prodValue, sdim_eq hca,
          sdim_eq hcb, vshape_eq hva, vshape_eq hvb, Cell.total_dimension, h1.dim, h1.shape, h2.size, mul_one]
        simp only [Cell.spatialDim, Cell.spatialDimL, Nat.add_zero] at hα hx
        have hisp := hi.split
        have hzsp := hz.split
        have hrl := ravel_lt hisp.2
        rw [Elem.indexShape_prod] at hrl
        have hr : ravel (a.indexShape ++ b.indexShape) i =
            ravel a.indexShape (i.take a.indexShape.length) * b.spaceDim + ravel b.indexShape (i.drop a.indexShape.length) := by
          rw [← Elem.indexShape_prod b, ← ravel_append hisp.1.length, List.take_append_drop]
        have hpos : 0 < b.spaceDim := by omega
        have hdiv : ravel (a.indexShape ++ b.indexShape) i / b.spaceDim = ravel a.indexShape (i.take a.indexShape.length) := by
          rw [hr, Nat.mul_comm, Nat.mul_add_div hpos, Nat.div_eq_of_lt hrl, Nat.add_zero]
        have hmod : ravel (a.indexShape ++ b.indexShape) i % b.spaceDim = ravel b.indexShape (i.drop a.indexShape.length) := by
          rw [hr, Nat.mul_comm, Nat.mul_add_mod, Nat.mod_eq_of_lt hrl]
        rw [hdiv, hmod, h1.value _ _ _ _ (by rw [List.length_take, hα]; omega) (by rw [List.length_take, hx]; omega) hisp.1 hzsp.1,
          h2.value _ _ _ _ (by rw [List.length_drop, hα]; omega) (by rw [List.length_drop, hx]; omega) hisp.2 hzsp.2,
          List.take_of_length_le (l := α.drop _) (by rw [List.length_drop, hα]; omega),
          List.take_of_length_le (l := x.drop _) (by rw [List.length_drop, hx]; omega),
          List.take_of_length_le (l := i.drop _) (by rw [hisp.2.length]),
          List.take_of_length_le (l := z.drop _) (by rw [hzsp.2.length])]
    · cases ht
  | .flattened p, c, vs, t, hs, h, hc, hv, ht => by
    rw [Shaped] at hs
    simp only [SameParts] at h
    simp only [Elem.valueShape] at hv
    simp only [fiatEquivalent] at ht
    obtain ⟨t', ht', ht⟩ := bind_ok.1 ht
    cases ht
    obtain ⟨cq, hcq⟩ := cell_flattened hc
    have h1 := equivalent p cq vs t' hs h hcq hv ht'
    refine ⟨by simp [FTree.dim, h1.dim, flattened_spatialDim hcq hc], by simp [FTree.size, h1.size, Elem.spaceDim],
      by simp [FTree.shape, h1.shape], fun α x i z hα hx hi hz => ?_⟩
    simp only [fiatValue, basisValue, productEnt_cell hcq hc, Elem.indexShape] at hi ⊢
    exact h1.value α x i z (hα.trans (flattened_spatialDim hcq hc)) (hx.trans (flattened_spatialDim hcq hc)) hi hz
  | .enriched es, c, vs, t, hs, h, hc, hv, ht => by
    rw [Shaped] at hs
    simp only [SameParts] at h
    have hp := enriched_parts hc hv
    simp only [fiatEquivalent] at ht
    split at ht
    · next hm =>
      obtain ⟨ts, hts, ht⟩ := bind_ok.1 ht
      cases ht
      obtain ⟨size, hl⟩ := h.2 hm
      have hF := equivalentP es c vs hs h.1 hp ts hts
      obtain ⟨h1, h2, h3⟩ := fiatMixed_eq es ts 0 hF hl
      obtain ⟨e, es', rfl⟩ := List.exists_cons_of_ne_nil (enriched_ne_nil hc)
      have hvs : vs = [size] := by
        have hv1 := (hp e List.mem_cons_self).2
        match e, hl with
        | .mixedSub f n m, hl =>
          simp only [LaidOut] at hl
          simp only [Elem.valueShape, Except.ok.injEq] at hv1
          rw [← hv1, hl.1]
      subst hvs
      refine ⟨?_, by simp [FTree.size, h1, Elem.spaceDim], by simp [FTree.shape, ← h2], fun α x i z hα hx hi hz => ?_⟩
      · cases hF with
        | cons hF _ =>
        obtain ⟨_, _, _, _, _, _, hF⟩ := hF
        simp only [FTree.dim, FTree.dimHead, hF.dim]
      · simp only [Elem.indexShape] at hi
        cases hi with
        | @cons k _ r _ hk hr =>
        cases hr
        cases hz with
        | @cons j _ r _ hj hr =>
        cases hr
        simp only [fiatValue, basisValue, Elem.indexShape, ravel_single, List.headD_cons]
        exact h3 α x k j hα hx hk (Nat.zero_le _) hj
    · obtain ⟨ts, hts, ht⟩ := bind_ok.1 ht
      cases ht
      have hE := equivalentL es hs h.1 ts hts
      have hF : List.Forall₂ (fun e t => Equivalent φ ψ e c vs t) es ts :=
        forall₂_mem hE fun e he t h => h c vs (hp e he).1 (hp e he).2
      obtain ⟨h1, h2⟩ := fiatSum_eq es ts hF
      obtain ⟨e, es', rfl⟩ := List.exists_cons_of_ne_nil (enriched_ne_nil hc)
      refine ⟨?_, by simp [FTree.size, h1, Elem.spaceDim], ?_, fun α x i z hα hx hi hz => ?_⟩
      · cases hF with
        | cons hF' _ => simp only [FTree.dim, FTree.dimHead, hF'.dim]
      · cases hF with
        | cons hF' _ => simp only [FTree.shape, FTree.shapeHead, hF'.shape]
      · simp only [Elem.indexShape] at hi
        cases hi with
        | @cons k _ r _ hk hr =>
        cases hr
        simp only [fiatValue, basisValue, Elem.indexShape, ravel_single, List.headD_cons]
        exact h2 α x k z hα hx hk hz
  | .mixedSub _ _ _, c, vs, t, hs, h, hc, hv, ht => by simp [fiatEquivalent] at ht
  | .tensorFE _ _ _, c, vs, t, hs, h, hc, hv, ht => by simp [fiatEquivalent] at ht
  | .discontinuous e, c, vs, t, hs, h, hc, hv, ht => by
    rw [Shaped] at hs
    simp only [SameParts] at h
    simp only [Elem.cell] at hc
    simp only [Elem.valueShape] at hv
    simp only [fiatEquivalent] at ht
    obtain ⟨t', ht', ht⟩ := bind_ok.1 ht
    cases ht
    have h1 := equivalent e c vs t' hs h hc hv ht'
    refine ⟨by simp [FTree.dim, h1.dim], by simp [FTree.size, h1.size, Elem.spaceDim],
      by simp [FTree.shape, h1.shape], fun α x i z hα hx hi hz => ?_⟩
    simp only [fiatValue, basisValue, Elem.indexShape] at hi ⊢
    exact h1.value α x i z hα hx hi hz
  | .hdiv w, c, vs, t, hs, h, hc, hv, ht => by
    rw [Shaped] at hs
    obtain ⟨hs, comps, vs', c', h1, h2, h3, h4, _, h6⟩ := hs
    simp only [SameParts] at h
    simp only [Elem.cell, h3] at hc
    cases hc
    simp only [Elem.valueShape, h3, bind, Except.bind, pure, Except.pure, Except.ok.injEq] at hv
    subst hv
    simp only [fiatEquivalent] at ht
    obtain ⟨t', ht', ht⟩ := bind_ok.1 ht
    cases ht
    have hE := equivalent w c vs' t' hs h.1 h3 h2 ht'
    refine ⟨by simp [FTree.dim, hE.dim], by simp [FTree.size, hE.size, Elem.spaceDim],
      by simp [FTree.shape, hE.dim], fun α x i z hα hx hi hz => ?_⟩
    simp only [fiatValue, basisValue, Elem.indexShape, h.2 t' ht'] at hi ⊢
    exact wrap_congr h1 h6 (fun ix hix => hE.value α x i ix hα hx hi hix) _
  | .hcurl w, c, vs, t, hs, h, hc, hv, ht => by
    rw [Shaped] at hs
    obtain ⟨hs, comps, vs', c', h1, h2, h3, h4, _, h6⟩ := hs
    simp only [SameParts] at h
    simp only [Elem.cell, h3] at hc
    cases hc
    simp only [Elem.valueShape, h3, bind, Except.bind, pure, Except.pure, Except.ok.injEq] at hv
    subst hv
    simp only [fiatEquivalent] at ht
    obtain ⟨t', ht', ht⟩ := bind_ok.1 ht
    cases ht
    have hE := equivalent w c vs' t' hs h.1 h3 h2 ht'
    refine ⟨by simp [FTree.dim, hE.dim], by simp [FTree.size, hE.size, Elem.spaceDim],
      by simp [FTree.shape, hE.dim], fun α x i z hα hx hi hz => ?_⟩
    simp only [fiatValue, basisValue, Elem.indexShape, h.2 t' ht'] at hi ⊢
    exact wrap_congr h1 h6 (fun ix hix => hE.value α x i ix hα hx hi hix) _
theorem equivalentL : ∀ (es : List Elem), (∀ e ∈ es, Shaped e) → SamePartsL φ ψ runtime es → ∀ ts,
    fiatEquivalents runtime es = .ok ts →
    List.Forall₂ (fun e t => ∀ c vs, e.cell = .ok c → e.valueShape = .ok vs → Equivalent φ ψ e c vs t) es ts
  | [], _, _, ts, ht => by simp only [fiatEquivalents, Except.ok.injEq] at ht; subst ht; exact .nil
  | e :: es, hs, h, ts, ht => by
    simp only [SamePartsL] at h
    simp only [fiatEquivalents] at ht
    obtain ⟨t, ht1, ht⟩ := bind_ok.1 ht
    obtain ⟨ts', ht2, ht⟩ := bind_ok.1 ht
    cases ht
    exact .cons (fun c vs hc hv => equivalent e c vs t (hs e List.mem_cons_self) h.1 hc hv ht1)
      (equivalentL es (fun f hf => hs f (List.mem_cons_of_mem _ hf)) h.2 ts' ht2)
theorem equivalentP : ∀ (es : List Elem) (c : Cell) (vs : List Nat), (∀ e ∈ es, Shaped e) → SamePartsL φ ψ runtime es →
    (∀ e ∈ es, e.cell = .ok c ∧ e.valueShape = .ok vs) → ∀ ts, fiatEquivalentParts runtime es = .ok ts →
    List.Forall₂ (fun e t => ∃ f n m vs, e = .mixedSub f n m ∧ f.valueShape = .ok vs ∧ Equivalent φ ψ f c vs t) es ts
  | [], _, _, _, _, _, ts, ht => by simp only [fiatEquivalentParts, Except.ok.injEq] at ht; subst ht; exact .nil
  | .mixedSub f n m :: es, c, vs, hs, h, hp, ts, ht => by
    simp only [SamePartsL, SameParts] at h
    simp only [fiatEquivalentParts, fiatEquivalentPart] at ht
    obtain ⟨t, ht1, ht⟩ := bind_ok.1 ht
    obtain ⟨ts', ht2, ht⟩ := bind_ok.1 ht
    cases ht
    have hs1 := hs _ List.mem_cons_self
    rw [Shaped] at hs1
    obtain ⟨hs1, _, vs', hv', _⟩ := hs1
    have hc := (hp _ List.mem_cons_self).1
    simp only [Elem.cell] at hc
    exact .cons ⟨f, n, m, vs', rfl, hv', equivalent f c vs' t hs1 h.1 hc hv' ht1⟩
      (equivalentP es c vs (fun f hf => hs f (List.mem_cons_of_mem _ hf)) h.2 (fun e he => hp e (List.mem_cons_of_mem _ he)) ts' ht2)
  | .leaf _ :: _, _, _, _, _, _, ts, ht => by simp [fiatEquivalentParts, fiatEquivalentPart, bind, Except.bind] at ht
  | .tensorProduct _ :: _, _, _, _, _, _, ts, ht => by simp [fiatEquivalentParts, fiatEquivalentPart, bind, Except.bind] at ht
  | .flattened _ :: _, _, _, _, _, _, ts, ht => by simp [fiatEquivalentParts, fiatEquivalentPart, bind, Except.bind] at ht
  | .enriched _ :: _, _, _, _, _, _, ts, ht => by simp [fiatEquivalentParts, fiatEquivalentPart, bind, Except.bind] at ht
  | .discontinuous _ :: _, _, _, _, _, _, ts, ht => by simp [fiatEquivalentParts, fiatEquivalentPart, bind, Except.bind] at ht
  | .tensorFE _ _ _ :: _, _, _, _, _, _, ts, ht => by simp [fiatEquivalentParts, fiatEquivalentPart, bind, Except.bind] at ht
  | .hdiv _ :: _, _, _, _, _, _, ts, ht => by simp [fiatEquivalentParts, fiatEquivalentPart, bind, Except.bind] at ht
  | .hcurl _ :: _, _, _, _, _, _, ts, ht => by simp [fiatEquivalentParts, fiatEquivalentPart, bind, Except.bind] at ht
  | .quadrature _ _ _ :: _, _, _, _, _, _, ts, ht => by simp [fiatEquivalentParts, fiatEquivalentPart, bind, Except.bind] at ht
end

end FInAT
