import Verif.Spec.Independent
import Verif.Lemmas.Interpolate
import Verif.Props.Tabulation

/-!
# Linear independence of composite bases
-/

namespace FInAT

open Spec Elem Props

variable {K : Type} [CommRing K] {φ : LeafVals K} {S : Nat → List K → Prop}

theorem feFunction_eq (φ : LeafVals K) (e : Elem) (c : Cell) (a : List Nat → K) (x : List K) (z : List Nat) :
    feFunction φ e c a x z = lsum (ndindex e.indexShape) fun j =>
      a j * basisValue φ e (List.replicate c.spatialDim 0) (c.dimension, 0) x j z := rfl

mutual
theorem inCell_length : ∀ {c : Cell} {x : List K}, InCell S c x → x.length = c.spatialDim
  | .simplex d, x, h => by simp only [InCell] at h; exact h.1
  | .quad, x, h => by simp only [InCell] at h; exact h.1
  | .hex, x, h => by simp only [InCell] at h; exact h.1
  | .prod cs, x, h => by
    simp only [InCell] at h
    simp only [Cell.spatialDim]
    exact inCellL_length h
theorem inCellL_length : ∀ {cs : List Cell} {x : List K}, InCellL S cs x → x.length = Cell.spatialDimL cs
  | [], x, h => by simp only [InCellL] at h; subst h; rfl
  | c :: cs, x, h => by
    simp only [InCellL] at h
    obtain ⟨y, w, rfl, h1, h2⟩ := h
    rw [List.length_append, inCell_length h1, inCellL_length h2]
    rfl
end

mutual
theorem inCell_cube : ∀ {c : Cell} {x : List K}, IsCube c → InCell S c x → ∀ t ∈ x, S 1 [t]
  | .simplex d, x, hc, h => by
    simp only [InCell] at h
    simp only [IsCube] at hc
    intro t ht
    match d, x, h, ht with
    | 0, [], _, ht => simp at ht
    | 1, [s], h, ht =>
      simp only [List.mem_singleton] at ht
      subst ht
      exact h.2
    | 0, _ :: _, h, _ => simp at h
    | 1, [], h, _ => simp at h
    | 1, _ :: _ :: _, h, _ => simp at h
  | .quad, x, _, h => by simp only [InCell] at h; exact h.2
  | .hex, x, _, h => by simp only [InCell] at h; exact h.2
  | .prod cs, x, hc, h => by
    simp only [InCell] at h
    simp only [IsCube] at hc
    exact inCellL_cube hc h
theorem inCellL_cube : ∀ {cs : List Cell} {x : List K}, IsCubeL cs → InCellL S cs x → ∀ t ∈ x, S 1 [t]
  | [], x, _, h => by simp only [InCellL] at h; subst h; simp
  | c :: cs, x, hc, h => by
    simp only [InCellL] at h
    simp only [IsCubeL] at hc
    obtain ⟨y, w, rfl, h1, h2⟩ := h
    intro t ht
    rcases List.mem_append.1 ht with ht | ht
    · exact inCell_cube hc.1 h1 t ht
    · exact inCellL_cube hc.2 h2 t ht
end

/-! ### Sums of elements -/

/-- Coefficients of an enriched element from coefficients of its parts. -/
def joinCoeffs : List Elem → (Nat → List Nat → K) → Nat → K
  | [], _, _ => 0
  | e :: es, a, k => if k < e.spaceDim then a 0 (unravel e.indexShape k) else joinCoeffs es (fun i => a (i + 1)) (k - e.spaceDim)

/-- Coefficients of the parts from coefficients of an enriched element. -/
def partCoeffs : List Elem → (Nat → K) → Nat → List Nat → K
  | [], _, _, _ => 0
  | e :: _, b, 0, j => b (ravel e.indexShape j)
  | e :: es, b, k + 1, j => partCoeffs es (fun r => b (e.spaceDim + r)) k j

theorem join_part : ∀ (es : List Elem) (b : Nat → K) (k : Nat), k < (Elem.spaceDimL es).sum →
    joinCoeffs es (partCoeffs es b) k = b k
  | [], b, k, h => by simp [Elem.spaceDimL] at h
  | e :: es, b, k, h => by
    simp only [Elem.spaceDimL, List.sum_cons] at h
    simp only [joinCoeffs]
    split_ifs with hk
    · simp only [partCoeffs]
      rw [ravel_unravel (by rw [Elem.indexShape_prod]; exact hk)]
    · have := join_part es (fun r => b (e.spaceDim + r)) (k - e.spaceDim) (by omega)
      simp only [partCoeffs]
      rw [this]
      congr 1
      omega

theorem joinCoeffs_zero : ∀ (es : List Elem) (a : Nat → List Nat → K),
    (∀ k < (Elem.spaceDimL es).sum, joinCoeffs es a k = 0) ↔
      ∀ k e, es[k]? = some e → ∀ j, InRange j e.indexShape → a k j = 0
  | [], a => by simp [Elem.spaceDimL]
  | e :: es, a => by
    have ih := joinCoeffs_zero es fun i => a (i + 1)
    have hp := Elem.indexShape_prod e
    constructor
    · intro h k f hf j hj
      cases k with
      | zero =>
        simp only [List.getElem?_cons_zero, Option.some.injEq] at hf
        subst hf
        have hlt : ravel e.indexShape j < e.spaceDim := by rw [← hp]; exact ravel_lt hj
        have := h (ravel e.indexShape j) (by simp only [Elem.spaceDimL, List.sum_cons]; omega)
        simp only [joinCoeffs, if_pos hlt, unravel_ravel hj] at this
        exact this
      | succ k =>
        refine ih.1 (fun r hr => ?_) k f (by simpa using hf) j hj
        have := h (e.spaceDim + r) (by simp only [Elem.spaceDimL, List.sum_cons]; omega)
        simp only [joinCoeffs] at this
        rw [if_neg (by omega), Nat.add_sub_cancel_left] at this
        exact this
    · intro h k hk
      simp only [Elem.spaceDimL, List.sum_cons] at hk
      simp only [joinCoeffs]
      split_ifs with hlt
      · exact h 0 e rfl _ (unravel_bounds (by rw [hp]; exact hlt))
      · exact ih.2 (fun k f hf => h (k + 1) f (by simpa using hf)) _ (by omega)

theorem lsum_range_add (m n : Nat) (f : Nat → K) :
    lsum (List.range (m + n)) f = lsum (List.range m) f + lsum (List.range n) fun k => f (m + k) := by
  rw [List.range_add]
  simp [lsum, Function.comp_def]

theorem sum_join (c : Cell) (x : List K) (z : List Nat) : ∀ (es : List Elem) (a : Nat → List Nat → K),
    (lsum (List.range (Elem.spaceDimL es).sum) fun k => joinCoeffs es a k *
      sumValue φ es (List.replicate c.spatialDim 0) (c.dimension, 0) x k z) = sumOfFunctions φ c x z es a
  | [], a => by simp [Elem.spaceDimL, sumOfFunctions]
  | e :: es, a => by
    have ih := sum_join c x z es fun k => a (k + 1)
    simp only [Elem.spaceDimL, List.sum_cons, lsum_range_add, sumOfFunctions]
    rw [← ih]
    congr 1
    · rw [feFunction_eq, ndindex_eq_map_unravel, lsum_map, Elem.indexShape_prod]
      refine lsum_congr fun k hk => ?_
      have hk := List.mem_range.1 hk
      simp only [joinCoeffs, sumValue, if_pos hk]
    · refine lsum_congr fun k _ => ?_
      have hk : ¬ e.spaceDim + k < e.spaceDim := by omega
      simp only [joinCoeffs, sumValue, if_neg hk, Nat.add_sub_cancel_left]

/-- A function of a sum of elements is a sum of functions of the elements. -/
theorem enriched_function (c : Cell) (x : List K) (z : List Nat) (es : List Elem) (a : Nat → List Nat → K) :
    feFunction φ (.enriched es) c (fun j => joinCoeffs es a (j.headD 0)) x z = sumOfFunctions φ c x z es a := by
  rw [feFunction_eq]
  simp only [Elem.indexShape, basisValue]
  rw [lsum_ndindex_one, ← sum_join c x z es a]
  rfl

theorem enriched_coeffs (c : Cell) (x : List K) (z : List Nat) (es : List Elem) (a : List Nat → K) :
    feFunction φ (.enriched es) c a x z = sumOfFunctions φ c x z es (partCoeffs es fun k => a [k]) := by
  rw [← enriched_function, feFunction_eq, feFunction_eq]
  simp only [Elem.indexShape]
  rw [lsum_ndindex_one, lsum_ndindex_one]
  refine lsum_congr fun k hk => ?_
  simp only [List.headD_cons]
  rw [join_part es _ k (List.mem_range.1 hk)]

/-- If all other functions are zero, the sum is the remaining one. -/
theorem sumOfFunctions_single (c : Cell) (x : List K) (z : List Nat) : ∀ (es : List Elem) (a : Nat → List Nat → K) (k : Nat)
    (e : Elem), es[k]? = some e → (∀ l f, es[l]? = some f → l ≠ k → feFunction φ f c (a l) x z = 0) →
    sumOfFunctions φ c x z es a = feFunction φ e c (a k) x z
  | [], a, k, e, h, _ => by simp at h
  | f :: es, a, 0, e, h, ho => by
    simp only [List.getElem?_cons_zero, Option.some.injEq] at h
    subst h
    simp only [sumOfFunctions]
    have : ∀ (es : List Elem) (b : Nat → List Nat → K), (∀ l g, es[l]? = some g → feFunction φ g c (b l) x z = 0) →
        sumOfFunctions φ c x z es b = 0 := by
      intro es
      induction es with
      | nil => intro b _; rfl
      | cons g es ih =>
        intro b hb
        simp only [sumOfFunctions]
        rw [hb 0 g rfl, ih _ fun l g' hl => hb (l + 1) g' (by simpa using hl), add_zero]
    rw [this es _ fun l g hl => ho (l + 1) g (by simpa using hl) (by omega), add_zero]
  | f :: es, a, k + 1, e, h, ho => by
    simp only [sumOfFunctions]
    rw [ho 0 f rfl (by omega), zero_add]
    exact sumOfFunctions_single c x z es _ k e (by simpa using h) fun l g hl hne =>
      ho (l + 1) g (by simpa using hl) (by omega)

theorem feFunction_zero (e : Elem) (c : Cell) {a : List Nat → K} (h : ∀ j, InRange j e.indexShape → a j = 0)
    (x : List K) (z : List Nat) : feFunction φ e c a x z = 0 := by
  rw [feFunction_eq]
  exact lsum_zero fun j hj => by rw [h j (mem_ndindex.1 hj), zero_mul]

/-- Sums of independent elements. -/
theorem independent_enriched {es : List Elem} (h : ∀ e ∈ es, Independent φ S e)
    (hd : ∀ c vs, (Elem.enriched es).cell = .ok c → (Elem.enriched es).valueShape = .ok vs → DirectSum φ S es c vs) :
    Independent φ S (.enriched es) := by
  intro c vs hc hv a ha j hj
  simp only [Elem.indexShape] at hj
  cases hj with
  | @cons k _ t _ hk ht =>
  cases ht
  have hz := (joinCoeffs_zero es (partCoeffs es fun k => a [k])).2 (fun i e hi j hj => by
    have hp := enriched_parts hc hv e (List.mem_of_getElem? hi)
    refine h e (List.mem_of_getElem? hi) c vs hp.1 hp.2 _ (hd c vs hc hv _ (fun x z hx hz => ?_) i e hi) j hj
    rw [← enriched_coeffs]
    exact ha x z hx hz) k hk
  rw [join_part es _ k hk] at hz
  exact hz

/-! ### Products -/

theorem lsum_wrap {comps : List Comp} {d : Nat} {vs : List Nat} (h : Placement K (.ok comps) d vs) (idx : List (List Nat))
    (a : List Nat → K) (G : List Nat → List Nat → K)
    (h0 : ∀ t < d, (lsum idx fun j => a j * wrapValue (.ok comps) (G j) t) = 0) {z : List Nat} (hz : InRange z vs) :
    (lsum idx fun j => a j * G j z) = 0 := by
  have hδ : ∀ j, G j z = lsum (List.range d) fun t =>
      wrapValue (.ok comps) (fun w => if z = w then (1 : K) else 0) t * wrapValue (.ok comps) (G j) t := by
    intro j
    have := h (fun w => if z = w then (1 : K) else 0) (G j)
    refine Eq.trans ?_ this.symm
    have h2 := lsum_delta (K := K) (nodup_ndindex vs) (mem_ndindex.2 hz) (G j)
    refine h2.symm.trans (lsum_congr fun w _ => ?_)
    split_ifs <;> simp
  rw [lsum_congr (g := fun j => lsum (List.range d) fun t =>
    wrapValue (.ok comps) (fun w => if z = w then (1 : K) else 0) t * (a j * wrapValue (.ok comps) (G j) t)) (fun j _ => by
      rw [hδ j, ← lsum_mul_left]
      exact lsum_congr fun t _ => by ring)]
  rw [lsum_comm]
  refine lsum_zero fun t ht => ?_
  rw [lsum_mul_left, h0 t (List.mem_range.1 ht), mul_zero]

theorem independent_mixedSub {e : Elem} {size offset : Nat} {vs0 : List Nat} (hv0 : e.valueShape = .ok vs0)
    (hle : offset + vs0.prod ≤ size) (h : Independent φ S e) : Independent φ S (.mixedSub e size offset) := by
  intro c vs hc hv a ha j hj
  simp only [Elem.cell] at hc
  simp only [Elem.valueShape, Except.ok.injEq] at hv
  subst hv
  simp only [Elem.indexShape] at hj
  refine h c vs0 hc hv0 a (fun x z hx hz => ?_) j hj
  have hr := ravel_lt hz
  have := ha x [offset + ravel vs0 z] hx (.cons (by omega) .nil)
  rw [feFunction_eq] at this ⊢
  simp only [Elem.indexShape, basisValue, List.headD_cons, vshape_eq hv0] at this
  rw [← this]
  refine lsum_congr fun i _ => ?_
  rw [if_pos ⟨by omega, by omega⟩, Nat.add_sub_cancel_left, unravel_ravel hz]

mutual
theorem independent : ∀ (e : Elem), Shaped e → IndependentTree φ S e → Independent φ S e
  | .leaf l, _, h => by simpa only [IndependentTree] using h
  | .quadrature _ _ _, _, h => by simpa only [IndependentTree] using h
  | .tensorProduct fs, hs, h => by
    rw [Shaped] at hs
    simp only [IndependentTree] at h
    intro c vs hc hv a ha j hj
    simp only [Elem.cell] at hc
    rw [bind_ok] at hc
    obtain ⟨cs, hcs, hc⟩ := hc
    cases hc
    simp only [Elem.valueShape] at hv
    rw [bind_ok] at hv
    obtain ⟨ss, hss, hpv⟩ := hv
    have hfl := prodValueShape_flatten hpv
    subst hfl
    simp only [Elem.indexShape] at hj
    refine independent_prod fs cs ss hs.2 h hcs hss a (fun x z hx hz => ?_) j hj
    have := ha x z (by simpa only [InCell] using hx) hz
    rw [feFunction_eq] at this
    simp only [Elem.indexShape, basisValue, factorEnts_cell hcs, Cell.spatialDim] at this
    exact this
  | .flattened p, hs, h => by
    rw [Shaped] at hs
    simp only [IndependentTree] at h
    intro c vs hc hv a ha j hj
    have hc0 := hc
    simp only [Elem.valueShape] at hv
    simp only [Elem.indexShape] at hj
    obtain ⟨cq, hcq⟩ := cell_flattened hc
    have hsd := flattened_spatialDim hcq hc
    refine independent p hs h.1 cq vs hcq hv a (fun x z hx hz => ?_) j hj
    have hx' : InCell S c x := by
      have h1 := inCell_length hx
      have h2 := inCell_cube (h.2 cq hcq) hx
      simp only [Elem.cell, hcq, bind, Except.bind] at hc
      split at hc
      · next hd => cases hc; exact ⟨by rw [h1, hd], h2⟩
      · split at hc
        · next hd => cases hc; exact ⟨by rw [h1, hd], h2⟩
        · cases hc
    have := ha x z hx' hz
    rw [feFunction_eq] at this ⊢
    simp only [Elem.indexShape, basisValue, productEnt_cell hcq hc0] at this
    rw [← hsd]
    exact this
  | .enriched es, hs, h => by
    rw [Shaped] at hs
    simp only [IndependentTree] at h
    exact independent_enriched (independentL es hs h.1) h.2
  | .mixedSub e size offset, hs, h => by
    rw [Shaped] at hs
    simp only [IndependentTree] at h
    obtain ⟨hs, _, vs0, hv0, hle⟩ := hs
    exact independent_mixedSub hv0 hle (independent e hs h)
  | .discontinuous e, hs, h => by
    rw [Shaped] at hs
    simp only [IndependentTree] at h
    intro c vs hc hv a ha j hj
    simp only [Elem.cell] at hc
    simp only [Elem.valueShape] at hv
    simp only [Elem.indexShape] at hj
    refine independent e hs h c vs hc hv a (fun x z hx hz => ?_) j hj
    have := ha x z hx hz
    rw [feFunction_eq] at this ⊢
    simpa only [Elem.indexShape, basisValue] using this
  | .tensorFE e shape tr, hs, h => by
    rw [Shaped] at hs
    simp only [IndependentTree] at h
    intro c vs' hc hv a ha j hj
    simp only [Elem.cell] at hc
    simp only [Elem.valueShape] at hv
    rw [bind_ok] at hv
    obtain ⟨vs, hvs, hv⟩ := hv
    cases hv
    cases tr with
    | false =>
      simp only [Elem.indexShape, Bool.false_eq_true, if_false] at hj
      have hj : InB j _ := hj
      have hsp := hj.split
      have := independent e hs.1 h c vs hc hvs (fun i => a (i ++ j.drop e.indexShape.length)) (fun x z hx hz => ?_) _ hsp.1
      · rwa [List.take_append_drop] at this
      · have := ha x (j.drop e.indexShape.length ++ z) hx (InB.append hsp.2 hz)
        rw [feFunction_eq] at this ⊢
        simp only [Elem.indexShape, basisValue, Bool.false_eq_true, if_false] at this
        rw [lsum_ndindex_append] at this
        rw [← this]
        refine lsum_congr fun i hi => ?_
        have hil : i.length = e.indexShape.length := InB.length (mem_ndindex.1 hi)
        have hcl := hsp.2.length
        rw [lsum_congr (g := fun b => if j.drop e.indexShape.length = b then
          a (i ++ b) * basisValue φ e (List.replicate c.spatialDim 0) (c.dimension, 0) x i z else 0) (fun b _ => by
            rw [List.take_left' hil, List.drop_left' hil, List.take_left' hcl, List.drop_left' hcl]
            by_cases hb : b = j.drop e.indexShape.length
            · rw [if_pos hb, if_pos hb.symm]
            · rw [if_neg hb, if_neg (Ne.symm hb), mul_zero])]
        exact (lsum_delta (nodup_ndindex shape) (mem_ndindex.2 hsp.2) fun b =>
          a (i ++ b) * basisValue φ e (List.replicate c.spatialDim 0) (c.dimension, 0) x i z).symm
    | true =>
      simp only [Elem.indexShape, if_true] at hj
      have hj : InB j _ := hj
      have hsp := hj.split
      have := independent e hs.1 h c vs hc hvs (fun i => a (j.take shape.length ++ i)) (fun x z hx hz => ?_) _ hsp.2
      · rwa [List.take_append_drop] at this
      · have := ha x (j.take shape.length ++ z) hx (InB.append hsp.1 hz)
        rw [feFunction_eq] at this ⊢
        simp only [Elem.indexShape, basisValue, if_true] at this
        rw [lsum_ndindex_append, lsum_comm] at this
        rw [← this]
        refine lsum_congr fun i hi => ?_
        have hcl := hsp.1.length
        rw [lsum_congr (l := ndindex shape) (g := fun b => if j.take shape.length = b then
          a (b ++ i) * basisValue φ e (List.replicate c.spatialDim 0) (c.dimension, 0) x i z else 0) (fun b hb => by
            have hbl : b.length = shape.length := InB.length (mem_ndindex.1 hb)
            rw [List.take_left' hbl, List.drop_left' hbl, List.take_left' hcl, List.drop_left' hcl]
            by_cases hb : b = j.take shape.length
            · rw [if_pos hb, if_pos hb.symm]
            · rw [if_neg hb, if_neg (Ne.symm hb), mul_zero])]
        exact (lsum_delta (nodup_ndindex shape) (mem_ndindex.2 hsp.1) fun b =>
          a (b ++ i) * basisValue φ e (List.replicate c.spatialDim 0) (c.dimension, 0) x i z).symm
  | .hdiv w, hs, h => by
    rw [Shaped] at hs
    obtain ⟨hs, comps, vs, c', h1, h2, h3, h4, _, _⟩ := hs
    simp only [IndependentTree, h1, sdim_eq h3, vshape_eq h2] at h
    intro c vs' hc hv a ha j hj
    simp only [Elem.cell, h3] at hc
    cases hc
    simp only [Elem.valueShape, h3, bind, Except.bind, pure, Except.pure, Except.ok.injEq] at hv
    subst hv
    simp only [Elem.indexShape] at hj
    refine independent w hs h.1 c' vs h3 h2 a (fun x z hx hz => ?_) j hj
    rw [feFunction_eq]
    refine lsum_wrap h.2 _ a _ (fun t ht => ?_) hz
    have := ha x [t] hx (.cons ht .nil)
    rw [feFunction_eq] at this
    simpa only [Elem.indexShape, basisValue, h1, List.headD_cons] using this
  | .hcurl w, hs, h => by
    rw [Shaped] at hs
    obtain ⟨hs, comps, vs, c', h1, h2, h3, h4, _, _⟩ := hs
    simp only [IndependentTree, h1, sdim_eq h3, vshape_eq h2] at h
    intro c vs' hc hv a ha j hj
    simp only [Elem.cell, h3] at hc
    cases hc
    simp only [Elem.valueShape, h3, bind, Except.bind, pure, Except.pure, Except.ok.injEq] at hv
    subst hv
    simp only [Elem.indexShape] at hj
    refine independent w hs h.1 c' vs h3 h2 a (fun x z hx hz => ?_) j hj
    rw [feFunction_eq]
    refine lsum_wrap h.2 _ a _ (fun t ht => ?_) hz
    have := ha x [t] hx (.cons ht .nil)
    rw [feFunction_eq] at this
    simpa only [Elem.indexShape, basisValue, h1, List.headD_cons] using this
theorem independentL : ∀ (es : List Elem), (∀ e ∈ es, Shaped e) → IndependentTreeL φ S es → ∀ e ∈ es, Independent φ S e
  | [], _, _, e, he => by simp at he
  | f :: es, hs, h, e, he => by
    simp only [IndependentTreeL] at h
    have hf := independent f (hs f List.mem_cons_self) h.1
    rcases List.mem_cons.1 he with h0 | he
    · rw [h0]; exact hf
    · exact independentL es (fun g hg => hs g (List.mem_cons_of_mem _ hg)) h.2 e he
theorem independent_prod : ∀ (fs : List Elem) (cs : List Cell) (ss : List (List Nat)),
    (∀ f ∈ fs, Shaped f) → IndependentTreeL φ S fs → Elem.cellL fs = .ok cs → Elem.valueShapeL fs = .ok ss →
    ∀ a : List Nat → K, (∀ x z, InCellL S cs x → InRange z ss.flatten →
      (lsum (ndindex (Elem.indexShapeL fs).flatten) fun j => a j * prodValue φ fs (List.replicate (Cell.spatialDimL cs) 0)
        (cs.map fun c => (c.dimension, 0)) x j z) = 0) →
    ∀ j, InRange j (Elem.indexShapeL fs).flatten → a j = 0
  | [], cs, ss, _, _, hc, hs, a, ha, j, hj => by
    simp only [Elem.cellL, Except.ok.injEq] at hc
    simp only [Elem.valueShapeL, Except.ok.injEq] at hs
    subst hc hs
    simp only [Elem.indexShapeL, List.flatten_nil] at hj ha
    cases hj
    have := ha [] [] rfl .nil
    rw [lsum_ndindex_nil] at this
    simpa [prodValue] using this
  | f :: fs, cs, ss, hsh, hp, hc, hs, a, ha, j, hj => by
    obtain ⟨c, cs', hc1, hc2, rfl⟩ := cellL_cons hc
    obtain ⟨s, ss', hs1, hs2, rfl⟩ := valueShapeL_cons hs
    simp only [IndependentTreeL] at hp
    simp only [Elem.indexShapeL, List.flatten_cons] at hj ha
    have hj : InB j _ := hj
    have hsp := hj.split
    have hF := independent f (hsh f List.mem_cons_self) hp.1 c s hc1 hs1
    have := independent_prod fs cs' ss' (fun g hg => hsh g (List.mem_cons_of_mem _ hg)) hp.2 hc2 hs2
      (fun i => a (j.take f.indexShape.length ++ i)) (fun y w hy hw => ?_) _ hsp.2
    · rwa [List.take_append_drop] at this
    · refine hF (fun i => lsum (ndindex (Elem.indexShapeL fs).flatten) fun k => a (i ++ k) * prodValue φ fs
        (List.replicate (Cell.spatialDimL cs') 0) (cs'.map fun c => (c.dimension, 0)) y k w) (fun x z hx hz => ?_) _ hsp.1
      have := ha (x ++ y) (z ++ w) ⟨x, y, rfl, hx, hy⟩ (InB.append hz hw)
      rw [feFunction_eq]
      rw [lsum_ndindex_append] at this
      rw [← this]
      refine lsum_congr fun i hi => ?_
      have hil : i.length = f.indexShape.length := InB.length (mem_ndindex.1 hi)
      rw [← lsum_mul_right]
      refine lsum_congr fun k _ => ?_
      have hz' : z.length = s.length := InB.length hz
      have hx' := inCell_length hx
      simp only [List.map_cons, prodValue, Cell.spatialDimL, sdim_eq hc1, vshape_eq hs1, Cell.total_dimension]
      rw [List.take_left' hx', List.drop_left' hx', List.take_left' hz', List.drop_left' hz', List.take_left' hil,
        List.drop_left' hil]
      simp only [List.take_replicate, List.drop_replicate, Nat.min_eq_left (Nat.le_add_right _ _), Nat.add_sub_cancel_left]
      ring
end

end FInAT
