import Verif.Spec.Complete
import Verif.Lemmas.Independent
import Verif.Lemmas.Exact

/-!
# Composite elements contain all polynomials of their degree
-/

namespace FInAT

open Spec Elem Props

variable {K : Type} [CommRing K] {φ : LeafVals K} {S : Nat → List K → Prop}

/-! ### Cells that are flattened -/

theorem inCellL_of_square : ∀ (cs : List Cell) (x : List K), (∀ c ∈ cs, c = .simplex 1 ∨ c = .quad) →
    x.length = Cell.spatialDimL cs → (∀ t ∈ x, S 1 [t]) → InCellL S cs x
  | [], x, _, hl, _ => by
    simp only [Cell.spatialDimL, List.length_eq_zero_iff] at hl
    simpa only [InCellL] using hl
  | c :: cs, x, h, hl, hx => by
    simp only [Cell.spatialDimL] at hl
    refine ⟨x.take c.spatialDim, x.drop c.spatialDim, (List.take_append_drop _ _).symm, ?_,
      inCellL_of_square cs _ (fun d hd => h d (List.mem_cons_of_mem _ hd)) (by rw [List.length_drop]; omega)
        fun t ht => hx t (List.mem_of_mem_drop ht)⟩
    have hlen : (x.take c.spatialDim).length = c.spatialDim := by rw [List.length_take]; omega
    have hmem : ∀ t ∈ x.take c.spatialDim, S 1 [t] := fun t ht => hx t (List.mem_of_mem_take ht)
    rcases h c List.mem_cons_self with rfl | rfl
    · simp only [Cell.spatialDim] at hlen hmem ⊢
      obtain ⟨t, ht⟩ := List.length_eq_one_iff.1 hlen
      rw [ht] at hmem ⊢
      exact ⟨rfl, hmem t List.mem_cons_self⟩
    · exact ⟨hlen, hmem⟩

theorem ofDegreeL_square : ∀ (cs : List Cell) (ds : List DegTree) (d : ℕ) (m : ℕ → ℕ),
    (∀ c ∈ cs, c = .simplex 1 ∨ c = .quad) → ds.length = cs.length → (∀ t ∈ ds, t = .leaf d) →
    (∀ j < Cell.spatialDimL cs, m j ≤ d) → OfDegreeL cs ds m
  | [], [], _, _, _, _, _, _ => by simp [OfDegreeL]
  | [], _ :: _, _, _, _, hl, _, _ => by simp at hl
  | _ :: _, [], _, _, _, hl, _, _ => by simp at hl
  | c :: cs, t :: ds, d, m, h, hl, ht, hm => by
    simp only [Cell.spatialDimL] at hm
    have h1 := ht t List.mem_cons_self
    subst h1
    simp only [OfDegreeL]
    refine ⟨?_, ofDegreeL_square cs ds d _ (fun e he => h e (List.mem_cons_of_mem _ he)) (by simpa using hl)
      (fun e he => ht e (List.mem_cons_of_mem _ he)) fun j hj => hm _ (by omega)⟩
    rcases h c List.mem_cons_self with rfl | rfl
    · simp only [Cell.spatialDim] at hm
      simpa [OfDegree, List.range_succ] using hm 0 (by omega)
    · simp only [Cell.spatialDim] at hm
      simp only [OfDegree, largest]
      exact ⟨hm 0 (by omega), hm 1 (by omega)⟩

theorem degreeL_length : ∀ {fs : List Elem} {ds : List DegTree}, Elem.degreeL fs = .ok ds → ds.length = fs.length
  | [], ds, h => by simp only [Elem.degreeL, Except.ok.injEq] at h; subst h; rfl
  | f :: fs, ds, h => by
    obtain ⟨d, ds', _, h2, rfl⟩ := degreeL_cons h
    simp [degreeL_length h2]

theorem cellL_length' : ∀ {fs : List Elem} {cs : List Cell}, Elem.cellL fs = .ok cs → cs.length = fs.length
  | [], cs, h => by simp only [Elem.cellL, Except.ok.injEq] at h; subst h; rfl
  | f :: fs, cs, h => by
    obtain ⟨c, cs', _, h2, rfl⟩ := cellL_cons h
    simp [cellL_length' h2]

/-! ### The tree -/

mutual
theorem complete : ∀ (e : Elem), Shaped e → CompleteTree φ S e → Complete φ S e
  | .leaf l, _, h => by simpa only [CompleteTree] using h
  | .quadrature _ _ _, _, h => by simp only [CompleteTree] at h
  | .mixedSub _ _ _, _, h => by simp only [CompleteTree] at h
  | .hdiv _, _, h => by simp only [CompleteTree] at h
  | .hcurl _, _, h => by simp only [CompleteTree] at h
  | .tensorProduct fs, hs, h => by
    rw [Shaped] at hs
    simp only [CompleteTree] at h
    intro c t vs hc ht hv m z₀ hm hz
    simp only [Elem.cell] at hc
    rw [bind_ok] at hc
    obtain ⟨cs, hcs, hc⟩ := hc
    cases hc
    simp only [Elem.degree] at ht
    rw [bind_ok] at ht
    obtain ⟨ds, hds, ht⟩ := ht
    cases ht
    simp only [Elem.valueShape] at hv
    rw [bind_ok] at hv
    obtain ⟨ss, hss, hpv⟩ := hv
    have hfl := prodValueShape_flatten hpv
    subst hfl
    simp only [OfDegree] at hm
    obtain ⟨a, ha⟩ := complete_prod fs cs ss ds hs.2 h hcs hss hds m z₀ hm hz
    refine ⟨a, fun x z hx hz => ?_⟩
    have := ha x z (by simpa only [InCell] using hx) hz
    rw [feFunction_eq]
    simp only [Elem.indexShape, basisValue, factorEnts_cell hcs, Cell.spatialDim, unitMonomial]
    exact this
  | .flattened p, hs, h => by
    rw [Shaped] at hs
    simp only [CompleteTree] at h
    obtain ⟨h, ⟨d, hd⟩, fs, cs, rfl, hcs, hsq⟩ := h
    intro c t vs hc ht hv m z₀ hm hz
    rw [hd] at ht
    cases ht
    have hc0 := hc
    simp only [Elem.valueShape] at hv
    obtain ⟨cq, hcq⟩ := cell_flattened hc
    have hsd := flattened_spatialDim hcq hc
    have hcq' : cq = .prod cs := by
      simp only [Elem.cell, hcs, bind, Except.bind, pure, Except.pure, Except.ok.injEq] at hcq
      exact hcq.symm
    subst hcq'
    simp only [Elem.degree] at hd
    rw [bind_ok] at hd
    obtain ⟨t', ht', hd⟩ := hd
    rw [bind_ok] at ht'
    obtain ⟨ds, hds, ht'⟩ := ht'
    cases ht'
    have hu := uniqueOf_mem hd
    have hlt : ∀ j < Cell.spatialDimL cs, m j ≤ d := by
      have hsd' : Cell.spatialDimL cs = c.spatialDim := hsd.symm
      rw [hsd']
      simp only [Elem.cell, hcs, bind, Except.bind, pure, Except.pure] at hc
      intro j hj
      split at hc
      · cases hc
        simp only [OfDegree, largest, Cell.spatialDim] at hm hj
        rcases (by omega : j = 0 ∨ j = 1) with rfl | rfl
        · exact hm.1
        · exact hm.2
      · split at hc
        · cases hc
          simp only [OfDegree, largest, Cell.spatialDim] at hm hj
          rcases (by omega : j = 0 ∨ j = 1 ∨ j = 2) with rfl | rfl | rfl
          · exact hm.1
          · exact hm.2.1
          · exact hm.2.2
        · cases hc
    have hm' : OfDegree (.prod cs) (.node ds) m := by
      simp only [OfDegree]
      exact ofDegreeL_square cs ds d m hsq (by rw [degreeL_length hds, cellL_length' hcs]) hu.2 hlt
    obtain ⟨a, ha⟩ := complete (.tensorProduct fs) hs h (.prod cs) (.node ds) vs hcq
      (by simp only [Elem.degree, hds, bind, Except.bind, pure, Except.pure]) hv m z₀ hm' hz
    refine ⟨a, fun x z hx hz => ?_⟩
    have hx' : InCell S (.prod cs) x := by
      have h1 := inCell_length hx
      simp only [InCell]
      refine inCellL_of_square cs x hsq (h1.trans hsd) ?_
      simp only [Elem.cell, hcs, bind, Except.bind, pure, Except.pure] at hc
      split at hc
      · cases hc; exact hx.2
      · split at hc
        · cases hc; exact hx.2
        · cases hc
    have := ha x z hx' hz
    rw [feFunction_eq] at this ⊢
    simp only [Elem.indexShape, basisValue, productEnt_cell hcq hc0, unitMonomial, hsd] at this ⊢
    exact this
  | .enriched es, hs, h => by
    rw [Shaped] at hs
    simp only [CompleteTree] at h
    obtain ⟨t₀, ht₀, h⟩ := h
    intro c t vs hc ht hv m z₀ hm hz
    rw [ht₀] at ht
    cases ht
    obtain ⟨k, e, hk, hdeg, hcomp⟩ := someComplete es hs t₀ h
    have hp := enriched_parts hc hv e (List.mem_of_getElem? hk)
    obtain ⟨a, ha⟩ := hcomp c t₀ vs hp.1 hdeg hp.2 m z₀ hm hz
    refine ⟨fun j => joinCoeffs es (fun i => if i = k then a else fun _ => 0) (j.headD 0), fun x z hx hz => ?_⟩
    rw [enriched_function, sumOfFunctions_single c x z es _ k e hk (fun l f _ hne => by
      simp only [if_neg hne]
      exact feFunction_zero f c (fun _ _ => rfl) x z)]
    simp only [if_true]
    exact ha x z hx hz
  | .discontinuous e, hs, h => by
    rw [Shaped] at hs
    simp only [CompleteTree] at h
    intro c t vs hc ht hv m z₀ hm hz
    simp only [Elem.cell] at hc
    simp only [Elem.degree] at ht
    simp only [Elem.valueShape] at hv
    obtain ⟨a, ha⟩ := complete e hs h c t vs hc ht hv m z₀ hm hz
    refine ⟨a, fun x z hx hz => ?_⟩
    have := ha x z hx hz
    rw [feFunction_eq] at this ⊢
    simpa only [Elem.indexShape, basisValue] using this
  | .tensorFE e shape tr, hs, h => by
    rw [Shaped] at hs
    simp only [CompleteTree] at h
    intro c t vs' hc ht hv m z₀ hm hz
    simp only [Elem.cell] at hc
    simp only [Elem.degree] at ht
    simp only [Elem.valueShape] at hv
    rw [bind_ok] at hv
    obtain ⟨vs, hvs, hv⟩ := hv
    cases hv
    have hz : InB z₀ _ := hz
    have hz0 := hz.split
    obtain ⟨a, ha⟩ := complete e hs.1 h c t vs hc ht hvs m (z₀.drop shape.length) hm hz0.2
    have hfin : ∀ x z, InCell S c x → InB z (shape ++ vs) →
        (if z₀.take shape.length = z.take shape.length then feFunction φ e c a x (z.drop shape.length) else 0) =
          unitMonomial c m z₀ x z := by
      intro x z hx hzz
      have hsp := hzz.split
      rw [ha x _ hx hsp.2]
      simp only [unitMonomial]
      by_cases h1 : z₀.take shape.length = z.take shape.length
      · rw [if_pos h1]
        by_cases h2 : z.drop shape.length = z₀.drop shape.length
        · rw [if_pos h2, if_pos]
          rw [← List.take_append_drop shape.length z, ← List.take_append_drop shape.length z₀, h1, h2]
        · rw [if_neg h2, if_neg]
          rintro rfl; exact h2 rfl
      · rw [if_neg h1, if_neg]
        rintro rfl; exact h1 rfl
    cases tr with
    | false =>
      refine ⟨fun j => if z₀.take shape.length = j.drop e.indexShape.length then a (j.take e.indexShape.length) else 0,
        fun x z hx hzz => ?_⟩
      rw [← hfin x z hx hzz, feFunction_eq, feFunction_eq]
      simp only [Elem.indexShape, basisValue, Bool.false_eq_true, if_false]
      rw [lsum_ndindex_append]
      rw [lsum_congr (g := fun i => if z₀.take shape.length = z.take shape.length then
        a i * basisValue φ e (List.replicate c.spatialDim 0) (c.dimension, 0) x i (z.drop shape.length) else 0)
        (fun i hi => by
          have hil : i.length = e.indexShape.length := InB.length (mem_ndindex.1 hi)
          rw [lsum_congr (g := fun b => if z₀.take shape.length = b then (if b = z.take shape.length then
            a i * basisValue φ e (List.replicate c.spatialDim 0) (c.dimension, 0) x i (z.drop shape.length) else 0) else 0)
            (fun b _ => by
              rw [List.take_left' hil, List.drop_left' hil]
              by_cases h1 : z₀.take shape.length = b
              · by_cases h2 : b = z.take shape.length
                · simp only [if_pos h1, if_pos h2]
                · simp only [if_pos h1, if_neg h2, mul_zero]
              · simp only [if_neg h1, zero_mul])]
          exact lsum_delta (nodup_ndindex shape) (mem_ndindex.2 hz0.1) fun b => if b = z.take shape.length then
            a i * basisValue φ e (List.replicate c.spatialDim 0) (c.dimension, 0) x i (z.drop shape.length) else 0)]
      by_cases h1 : z₀.take shape.length = z.take shape.length
      · simp only [if_pos h1]
      · simp only [if_neg h1]
        exact lsum_zero fun _ _ => rfl
    | true =>
      refine ⟨fun j => if z₀.take shape.length = j.take shape.length then a (j.drop shape.length) else 0,
        fun x z hx hzz => ?_⟩
      rw [← hfin x z hx hzz, feFunction_eq, feFunction_eq]
      simp only [Elem.indexShape, basisValue, if_true]
      rw [lsum_ndindex_append, lsum_comm]
      rw [lsum_congr (g := fun i => if z₀.take shape.length = z.take shape.length then
        a i * basisValue φ e (List.replicate c.spatialDim 0) (c.dimension, 0) x i (z.drop shape.length) else 0)
        (fun i hi => by
          rw [lsum_congr (l := ndindex shape) (g := fun b => if z₀.take shape.length = b then (if b = z.take shape.length then
            a i * basisValue φ e (List.replicate c.spatialDim 0) (c.dimension, 0) x i (z.drop shape.length) else 0) else 0)
            (fun b hb => by
              have hbl : b.length = shape.length := InB.length (mem_ndindex.1 hb)
              rw [List.take_left' hbl, List.drop_left' hbl]
              by_cases h1 : z₀.take shape.length = b
              · by_cases h2 : b = z.take shape.length
                · simp only [if_pos h1, if_pos h2]
                · simp only [if_pos h1, if_neg h2, mul_zero]
              · simp only [if_neg h1, zero_mul])]
          exact lsum_delta (nodup_ndindex shape) (mem_ndindex.2 hz0.1) fun b => if b = z.take shape.length then
            a i * basisValue φ e (List.replicate c.spatialDim 0) (c.dimension, 0) x i (z.drop shape.length) else 0)]
      by_cases h1 : z₀.take shape.length = z.take shape.length
      · simp only [if_pos h1]
      · simp only [if_neg h1]
        exact lsum_zero fun _ _ => rfl
theorem someComplete : ∀ (es : List Elem), (∀ e ∈ es, Shaped e) → ∀ t, SomeComplete φ S t es →
    ∃ (k : Nat) (e : Elem), es[k]? = some e ∧ e.degree = .ok t ∧ Complete φ S e
  | [], _, _, h => by simp only [SomeComplete] at h
  | f :: es, hs, t, h => by
    simp only [SomeComplete] at h
    rcases h with h | h
    · exact ⟨0, f, rfl, h.2, complete f (hs f List.mem_cons_self) h.1⟩
    · obtain ⟨k, e, hk, h1, h2⟩ := someComplete es (fun g hg => hs g (List.mem_cons_of_mem _ hg)) t h
      exact ⟨k + 1, e, by simpa using hk, h1, h2⟩
theorem complete_prod : ∀ (fs : List Elem) (cs : List Cell) (ss : List (List Nat)) (ds : List DegTree),
    (∀ f ∈ fs, Shaped f) → CompleteTreeL φ S fs → Elem.cellL fs = .ok cs → Elem.valueShapeL fs = .ok ss →
    Elem.degreeL fs = .ok ds → ∀ (m : ℕ → ℕ) (z₀ : List Nat), OfDegreeL cs ds m → InRange z₀ ss.flatten →
    ∃ a : List Nat → K, ∀ x z, InCellL S cs x → InRange z ss.flatten →
      (lsum (ndindex (Elem.indexShapeL fs).flatten) fun j => a j * prodValue φ fs (List.replicate (Cell.spatialDimL cs) 0)
        (cs.map fun c => (c.dimension, 0)) x j z) =
        if z = z₀ then monoVal x ((List.range (Cell.spatialDimL cs)).map m) else 0
  | [], cs, ss, ds, _, _, hc, hs, hd, m, z₀, hm, hz => by
    simp only [Elem.cellL, Except.ok.injEq] at hc
    simp only [Elem.valueShapeL, Except.ok.injEq] at hs
    subst hc hs
    refine ⟨fun _ => 1, fun x z hx hzz => ?_⟩
    simp only [Elem.indexShapeL, List.flatten_nil, lsum_ndindex_nil]
    cases hz
    cases hzz
    simp [prodValue, Cell.spatialDimL]
    cases x <;> rfl
  | f :: fs, cs, ss, ds, hsh, hp, hc, hs, hd, m, z₀, hm, hz => by
    obtain ⟨c, cs', hc1, hc2, rfl⟩ := cellL_cons hc
    obtain ⟨s, ss', hs1, hs2, rfl⟩ := valueShapeL_cons hs
    obtain ⟨d, ds', hd1, hd2, rfl⟩ := degreeL_cons hd
    simp only [CompleteTreeL] at hp
    simp only [OfDegreeL] at hm
    simp only [List.flatten_cons] at hz
    have hz : InB z₀ _ := hz
    have hsp := hz.split
    obtain ⟨a, ha⟩ := complete f (hsh f List.mem_cons_self) hp.1 c d s hc1 hd1 hs1 m (z₀.take s.length) hm.1 hsp.1
    obtain ⟨b, hb⟩ := complete_prod fs cs' ss' ds' (fun g hg => hsh g (List.mem_cons_of_mem _ hg)) hp.2 hc2 hs2 hd2
      (fun j => m (j + c.spatialDim)) (z₀.drop s.length) hm.2 hsp.2
    refine ⟨fun j => a (j.take f.indexShape.length) * b (j.drop f.indexShape.length), fun xy zw hxy hzw => ?_⟩
    simp only [InCellL] at hxy
    obtain ⟨x, y, rfl, hx, hy⟩ := hxy
    have hzw : InB zw _ := hzw
    simp only [List.flatten_cons] at hzw
    have hq := hzw.split
    have h1 := ha x _ hx hq.1
    have h2 := hb y _ hy hq.2
    rw [feFunction_eq] at h1
    simp only [unitMonomial] at h1
    have hx' := inCell_length hx
    simp only [Elem.indexShapeL, List.flatten_cons]
    rw [lsum_ndindex_append]
    rw [lsum_congr (g := fun i => (a i * basisValue φ f (List.replicate c.spatialDim 0) (c.dimension, 0) x i
        (zw.take s.length)) * (if zw.drop s.length = z₀.drop s.length then
          monoVal y ((List.range (Cell.spatialDimL cs')).map fun j => m (j + c.spatialDim)) else 0)) (fun i hi => by
      have hil : i.length = f.indexShape.length := InB.length (mem_ndindex.1 hi)
      rw [← h2, ← lsum_mul_left]
      refine lsum_congr fun k _ => ?_
      simp only [List.map_cons, prodValue, Cell.spatialDimL, sdim_eq hc1, vshape_eq hs1, Cell.total_dimension]
      rw [List.take_left' hx', List.drop_left' hx', List.take_left' hil, List.drop_left' hil]
      simp only [List.take_replicate, List.drop_replicate, Nat.min_eq_left (Nat.le_add_right _ _), Nat.add_sub_cancel_left]
      ring)]
    rw [lsum_mul_right, h1]
    have hmono : monoVal (x ++ y) ((List.range (Cell.spatialDimL (c :: cs'))).map m) =
        monoVal x ((List.range c.spatialDim).map m) *
          monoVal y ((List.range (Cell.spatialDimL cs')).map fun j => m (j + c.spatialDim)) := by
      rw [Cell.spatialDimL, ← List.take_append_drop c.spatialDim ((List.range (c.spatialDim + _)).map m), take_range,
        drop_range, monoVal_append _ _ _ _ (by simp [hx'])]
    rw [hmono]
    by_cases e1 : zw.take s.length = z₀.take s.length
    · by_cases e2 : zw.drop s.length = z₀.drop s.length
      · rw [if_pos e1, if_pos e2, if_pos]
        rw [← List.take_append_drop s.length zw, ← List.take_append_drop s.length z₀, e1, e2]
      · rw [if_neg e2, mul_zero, if_neg]
        rintro rfl; exact e2 rfl
    · rw [if_neg e1, zero_mul, if_neg]
      rintro rfl; exact e1 rfl
end

end FInAT
