import Verif.Spec.Unity
import Verif.Lemmas.Independent

/-!
# Sums and signs of the basis functions of products
-/

namespace FInAT

open Spec Elem

section
variable {K : Type} [CommRing K] {φ : LeafVals K} {S : Nat → List K → Prop}

mutual
theorem inCell_of_cube (h0 : S 0 []) : ∀ (c : Cell) (x : List K), IsCube c → x.length = c.spatialDim → (∀ t ∈ x, S 1 [t]) →
    InCell S c x
  | .simplex d, x, hc, hl, hx => by
    simp only [IsCube] at hc
    simp only [Cell.spatialDim] at hl
    refine ⟨hl, ?_⟩
    match d, x, hl, hx, hc with
    | 0, [], _, _, _ => exact h0
    | 1, [t], _, hx, _ => exact hx t List.mem_cons_self
  | .quad, x, _, hl, hx => ⟨hl, hx⟩
  | .hex, x, _, hl, hx => ⟨hl, hx⟩
  | .prod cs, x, hc, hl, hx => by
    simp only [InCell]
    exact inCellL_of_cube h0 cs x hc hl hx
theorem inCellL_of_cube (h0 : S 0 []) : ∀ (cs : List Cell) (x : List K), IsCubeL cs → x.length = Cell.spatialDimL cs →
    (∀ t ∈ x, S 1 [t]) → InCellL S cs x
  | [], x, _, hl, _ => List.length_eq_zero_iff.1 hl
  | c :: cs, x, hc, hl, hx => by
    simp only [Cell.spatialDimL] at hl
    exact ⟨x.take c.spatialDim, x.drop c.spatialDim, (List.take_append_drop _ _).symm,
      inCell_of_cube h0 c _ hc.1 (by rw [List.length_take]; omega) fun t ht => hx t (List.mem_of_mem_take ht),
      inCellL_of_cube h0 cs _ hc.2 (by rw [List.length_drop]; omega) fun t ht => hx t (List.mem_of_mem_drop ht)⟩
end

theorem inCell_unflatten (h0 : S 0 []) {p : Elem} {c cf : Cell} {x : List K} (hc : p.cell = .ok c) (hq : IsCube c)
    (hf : (Elem.flattened p).cell = .ok cf) (hx : InCell S cf x) : InCell S c x := by
  refine inCell_of_cube h0 c x hq ((inCell_length hx).trans (flattened_spatialDim hc hf)) ?_
  simp only [Elem.cell, hc, bind, Except.bind] at hf
  split at hf
  · cases hf; exact hx.2
  · split at hf
    · cases hf; exact hx.2
    · cases hf

theorem sumsToOne_eq (e : Elem) : SumsToOne φ S e ↔ ∀ c vs, e.cell = .ok c → e.valueShape = .ok vs → ∀ α x z,
    α.length = c.spatialDim → InCell S c x → InRange z vs →
      (lsum (ndindex e.indexShape) fun j => basisValue φ e α (c.dimension, 0) x j z) =
        if α = List.replicate c.spatialDim 0 then 1 else 0 := Iff.rfl

theorem replicate_split (α : List Nat) (m n : Nat) :
    α = List.replicate (m + n) 0 ↔ α.take m = List.replicate m 0 ∧ α.drop m = List.replicate n 0 := by
  constructor
  · rintro rfl
    simp [List.take_replicate, List.drop_replicate]
  · rintro ⟨h1, h2⟩
    rw [← List.take_append_drop m α, h1, h2, List.replicate_append_replicate]

mutual
theorem sumsToOne (h0 : S 0 []) : ∀ (e : Elem), ProductTree (fun l => SumsToOne φ S (.leaf l)) e → SumsToOne φ S e
  | .leaf l, h => by simpa only [ProductTree] using h
  | .enriched _, h => by simp only [ProductTree] at h
  | .quadrature _ _ _, h => by simp only [ProductTree] at h
  | .mixedSub _ _ _, h => by simp only [ProductTree] at h
  | .hdiv _, h => by simp only [ProductTree] at h
  | .hcurl _, h => by simp only [ProductTree] at h
  | .tensorProduct fs, h => by
    simp only [ProductTree] at h
    rw [sumsToOne_eq]
    intro c vs hc hv α x z hα hx hz
    simp only [Elem.cell] at hc
    rw [bind_ok] at hc
    obtain ⟨cs, hcs, hc⟩ := hc
    cases hc
    simp only [Elem.valueShape] at hv
    rw [bind_ok] at hv
    obtain ⟨ss, hss, hpv⟩ := hv
    have hfl := prodValueShape_flatten hpv
    subst hfl
    simp only [Elem.indexShape, basisValue, factorEnts_cell hcs, Cell.spatialDim]
    exact sumsToOne_prod h0 fs cs ss h hcs hss α x z hα (by simpa only [InCell] using hx) hz
  | .flattened p, h => by
    simp only [ProductTree] at h
    rw [sumsToOne_eq]
    intro c vs hc hv α x z hα hx hz
    obtain ⟨cp, hcp⟩ := cell_flattened hc
    have hsd := flattened_spatialDim hcp hc
    have := sumsToOne h0 p h.1 cp vs hcp (by simpa only [Elem.valueShape] using hv) α x z (hα.trans hsd)
      (inCell_unflatten h0 hcp (h.2 cp hcp) hc hx) hz
    simp only [Elem.indexShape, basisValue, productEnt_cell hcp hc, hsd]
    exact this
  | .discontinuous e, h => by
    simp only [ProductTree] at h
    rw [sumsToOne_eq]
    intro c vs hc hv α x z hα hx hz
    simp only [Elem.cell] at hc
    simp only [Elem.valueShape] at hv
    have := sumsToOne h0 e h c vs hc hv α x z hα hx hz
    simp only [Elem.indexShape, basisValue]
    exact this
  | .tensorFE e shape tr, h => by
    simp only [ProductTree] at h
    rw [sumsToOne_eq]
    intro c vs' hc hv α x z hα hx hz
    simp only [Elem.cell] at hc
    simp only [Elem.valueShape] at hv
    rw [bind_ok] at hv
    obtain ⟨vs, hvs, hv⟩ := hv
    cases hv
    have hz : InB z _ := hz
    have hsp := hz.split
    have ih := sumsToOne h0 e h c vs hc hvs α x _ hα hx hsp.2
    rw [← ih]
    show _ = lsum (ndindex e.indexShape) fun j => basisValue φ e α (c.dimension, 0) x j (z.drop shape.length)
    cases tr with
    | false =>
      simp only [Elem.indexShape, basisValue, Bool.false_eq_true, if_false]
      rw [lsum_ndindex_append]
      refine lsum_congr fun i hi => ?_
      have hil : i.length = e.indexShape.length := InB.length (mem_ndindex.1 hi)
      rw [lsum_congr (g := fun b => if z.take shape.length = b then
        basisValue φ e α (c.dimension, 0) x i (z.drop shape.length) else 0) (fun b _ => by
          rw [List.take_left' hil, List.drop_left' hil]
          simp only [eq_comm])]
      exact lsum_delta (nodup_ndindex shape) (mem_ndindex.2 hsp.1) fun _ =>
        basisValue φ e α (c.dimension, 0) x i (z.drop shape.length)
    | true =>
      simp only [Elem.indexShape, basisValue, if_true]
      rw [lsum_ndindex_append, lsum_comm]
      refine lsum_congr fun i hi => ?_
      rw [lsum_congr (l := ndindex shape) (g := fun b => if z.take shape.length = b then
        basisValue φ e α (c.dimension, 0) x i (z.drop shape.length) else 0) (fun b hb => by
          have hbl : b.length = shape.length := InB.length (mem_ndindex.1 hb)
          rw [List.take_left' hbl, List.drop_left' hbl]
          simp only [eq_comm])]
      exact lsum_delta (nodup_ndindex shape) (mem_ndindex.2 hsp.1) fun _ =>
        basisValue φ e α (c.dimension, 0) x i (z.drop shape.length)
theorem sumsToOne_prod (h0 : S 0 []) : ∀ (fs : List Elem) (cs : List Cell) (ss : List (List Nat)),
    ProductTreeL (fun l => SumsToOne φ S (.leaf l)) fs → Elem.cellL fs = .ok cs → Elem.valueShapeL fs = .ok ss →
    ∀ (α : List Nat) (x : List K) (z : List Nat), α.length = Cell.spatialDimL cs → InCellL S cs x → InRange z ss.flatten →
      (lsum (ndindex (Elem.indexShapeL fs).flatten) fun j => prodValue φ fs α (cs.map fun c => (c.dimension, 0)) x j z) =
        if α = List.replicate (Cell.spatialDimL cs) 0 then 1 else 0
  | [], cs, ss, _, hc, _, α, x, z, hα, _, _ => by
    simp only [Elem.cellL, Except.ok.injEq] at hc
    subst hc
    simp only [Cell.spatialDimL, List.length_eq_zero_iff] at hα
    subst hα
    simp only [Elem.indexShapeL, List.flatten_nil, lsum_ndindex_nil]
    simp [prodValue, Cell.spatialDimL]
  | f :: fs, cs, ss, hp, hc, hs, α, xy, zw, hα, hxy, hzw => by
    obtain ⟨c, cs', hc1, hc2, rfl⟩ := cellL_cons hc
    obtain ⟨s, ss', hs1, hs2, rfl⟩ := valueShapeL_cons hs
    simp only [ProductTreeL] at hp
    simp only [InCellL] at hxy
    obtain ⟨x, y, rfl, hx, hy⟩ := hxy
    have hzw : InB zw _ := hzw
    simp only [List.flatten_cons] at hzw
    have hq := hzw.split
    simp only [Cell.spatialDimL] at hα
    have h1 := (sumsToOne_eq f).1 (sumsToOne h0 f hp.1) c s hc1 hs1 (α.take c.spatialDim) x _
      (by rw [List.length_take]; omega) hx hq.1
    have h2 := sumsToOne_prod h0 fs cs' ss' hp.2 hc2 hs2 (α.drop c.spatialDim) y _
      (by rw [List.length_drop]; omega) hy hq.2
    have hx' := inCell_length hx
    simp only [Elem.indexShapeL, List.flatten_cons]
    rw [lsum_ndindex_append]
    rw [lsum_congr (g := fun i => basisValue φ f (α.take c.spatialDim) (c.dimension, 0) x i (zw.take s.length) *
        (if α.drop c.spatialDim = List.replicate (Cell.spatialDimL cs') 0 then 1 else 0)) (fun i hi => by
      have hil : i.length = f.indexShape.length := InB.length (mem_ndindex.1 hi)
      rw [← h2, ← lsum_mul_left]
      refine lsum_congr fun k _ => ?_
      simp only [List.map_cons, prodValue, sdim_eq hc1, vshape_eq hs1, Cell.total_dimension]
      rw [List.take_left' hx', List.drop_left' hx', List.take_left' hil, List.drop_left' hil])]
    rw [lsum_mul_right, h1]
    simp only [Cell.spatialDimL, replicate_split]
    by_cases e1 : α.take c.spatialDim = List.replicate c.spatialDim 0
    · by_cases e2 : α.drop c.spatialDim = List.replicate (Cell.spatialDimL cs') 0
      · rw [if_pos e1, if_pos e2, if_pos ⟨e1, e2⟩, mul_one]
      · rw [if_neg e2, mul_zero, if_neg fun h => e2 h.2]
    · rw [if_neg e1, zero_mul, if_neg fun h => e1 h.1]
end

end

section
variable {K : Type} [CommRing K] [PartialOrder K] [IsOrderedRing K] {φ : LeafVals K} {S : Nat → List K → Prop}

mutual
theorem nonNegative (h0 : S 0 []) : ∀ (e : Elem), ProductTree (fun l => NonNegative φ S (.leaf l)) e → NonNegative φ S e
  | .leaf l, h => by simpa only [ProductTree] using h
  | .enriched _, h => by simp only [ProductTree] at h
  | .quadrature _ _ _, h => by simp only [ProductTree] at h
  | .mixedSub _ _ _, h => by simp only [ProductTree] at h
  | .hdiv _, h => by simp only [ProductTree] at h
  | .hcurl _, h => by simp only [ProductTree] at h
  | .tensorProduct fs, h => by
    simp only [ProductTree] at h
    intro c vs hc hv x j z hx hj hz
    simp only [Elem.cell] at hc
    rw [bind_ok] at hc
    obtain ⟨cs, hcs, hc⟩ := hc
    cases hc
    simp only [Elem.valueShape] at hv
    rw [bind_ok] at hv
    obtain ⟨ss, hss, hpv⟩ := hv
    have hfl := prodValueShape_flatten hpv
    subst hfl
    simp only [Elem.indexShape] at hj
    simp only [basisValue, factorEnts_cell hcs, Cell.spatialDim]
    exact nonNegative_prod h0 fs cs ss h hcs hss x j z (by simpa only [InCell] using hx) hj hz
  | .flattened p, h => by
    simp only [ProductTree] at h
    intro c vs hc hv x j z hx hj hz
    obtain ⟨cp, hcp⟩ := cell_flattened hc
    have hsd := flattened_spatialDim hcp hc
    have := nonNegative h0 p h.1 cp vs hcp (by simpa only [Elem.valueShape] using hv) x j z
      (inCell_unflatten h0 hcp (h.2 cp hcp) hc hx) (by simpa only [Elem.indexShape] using hj) hz
    simp only [basisValue, productEnt_cell hcp hc, hsd]
    exact this
  | .discontinuous e, h => by
    simp only [ProductTree] at h
    intro c vs hc hv x j z hx hj hz
    simp only [Elem.cell] at hc
    simp only [Elem.valueShape] at hv
    simp only [Elem.indexShape] at hj
    simp only [basisValue]
    exact nonNegative h0 e h c vs hc hv x j z hx hj hz
  | .tensorFE e shape tr, h => by
    simp only [ProductTree] at h
    intro c vs' hc hv x j z hx hj hz
    simp only [Elem.cell] at hc
    simp only [Elem.valueShape] at hv
    rw [bind_ok] at hv
    obtain ⟨vs, hvs, hv⟩ := hv
    cases hv
    have hz : InB z _ := hz
    have hsp := hz.split
    have hj : InB j _ := hj
    cases tr with
    | false =>
      simp only [Elem.indexShape, Bool.false_eq_true, if_false] at hj
      simp only [basisValue, Bool.false_eq_true, if_false]
      split_ifs
      · exact nonNegative h0 e h c vs hc hvs x _ _ hx hj.split.1 hsp.2
      · exact le_refl _
    | true =>
      simp only [Elem.indexShape, if_true] at hj
      simp only [basisValue, if_true]
      split_ifs
      · exact nonNegative h0 e h c vs hc hvs x _ _ hx hj.split.2 hsp.2
      · exact le_refl _
theorem nonNegative_prod (h0 : S 0 []) : ∀ (fs : List Elem) (cs : List Cell) (ss : List (List Nat)),
    ProductTreeL (fun l => NonNegative φ S (.leaf l)) fs → Elem.cellL fs = .ok cs → Elem.valueShapeL fs = .ok ss →
    ∀ (x : List K) (j z : List Nat), InCellL S cs x → InRange j (Elem.indexShapeL fs).flatten → InRange z ss.flatten →
      0 ≤ prodValue φ fs (List.replicate (Cell.spatialDimL cs) 0) (cs.map fun c => (c.dimension, 0)) x j z
  | [], cs, ss, _, _, _, _, _, _, _, _, _ => by
    simp only [prodValue]
    exact zero_le_one
  | f :: fs, cs, ss, hp, hc, hs, xy, j, zw, hxy, hj, hzw => by
    obtain ⟨c, cs', hc1, hc2, rfl⟩ := cellL_cons hc
    obtain ⟨s, ss', hs1, hs2, rfl⟩ := valueShapeL_cons hs
    simp only [ProductTreeL] at hp
    simp only [InCellL] at hxy
    obtain ⟨x, y, rfl, hx, hy⟩ := hxy
    have hzw : InB zw _ := hzw
    simp only [List.flatten_cons] at hzw
    have hq := hzw.split
    simp only [Elem.indexShapeL, List.flatten_cons] at hj
    have hj : InB j _ := hj
    have hjs := hj.split
    have h1 := nonNegative h0 f hp.1 c s hc1 hs1 x _ _ hx hjs.1 hq.1
    have h2 := nonNegative_prod h0 fs cs' ss' hp.2 hc2 hs2 y _ _ hy hjs.2 hq.2
    have hx' := inCell_length hx
    simp only [List.map_cons, prodValue, sdim_eq hc1, vshape_eq hs1, Cell.total_dimension, Cell.spatialDimL]
    rw [List.take_left' hx', List.drop_left' hx']
    simp only [List.take_replicate, List.drop_replicate, Nat.min_eq_left (Nat.le_add_right _ _), Nat.add_sub_cancel_left]
    exact mul_nonneg h1 h2
end

theorem lsum_le {α : Type} {l : List α} {f g : α → K} (h : ∀ i ∈ l, f i ≤ g i) : lsum l f ≤ lsum l g := by
  induction l with
  | nil => simp only [lsum_nil]; exact le_refl _
  | cons a l ih =>
    rw [lsum_cons, lsum_cons]
    exact add_le_add (h a List.mem_cons_self) (ih fun i hi => h i (List.mem_cons_of_mem _ hi))

end

end FInAT
