import Verif.Lemmas.Independent
import Verif.Props.TabExamples
import Verif.Props.Dual
import Mathlib.LinearAlgebra.Dimension.Constructions
import Mathlib.LinearAlgebra.Dimension.Finite
import Mathlib.Tactic.Linarith

/-!
# C85: the basis functions of composed elements are linearly independent
-/

namespace FInAT.Props

open FInAT FInAT.Spec

section
variable {K : Type} [CommRing K] (φ : LeafVals K) (S : Nat → List K → Prop)

/-- **C85.** If the basis functions of the leaves of an element tree are linearly independent (and sums in it are direct, see
`C85_enriched`), then so are the basis functions of the element: a finite element function that is zero on the whole cell has zero
coefficients. -/
theorem C85_independent (e : Elem) (hs : Shaped e) (h : IndependentTree φ S e) : Independent φ S e :=
  independent e hs h

/-- **C85.** An enriched element is independent exactly when its summands are and the sum of their spaces is direct. -/
theorem C85_enriched (es : List Elem) (c : Cell) (vs : List Nat) (hc : (Elem.enriched es).cell = .ok c)
    (hv : (Elem.enriched es).valueShape = .ok vs) :
    Independent φ S (.enriched es) ↔ (∀ e ∈ es, Independent φ S e) ∧ DirectSum φ S es c vs := by
  constructor
  · intro h
    have key : ∀ a : Nat → List Nat → K, (∀ x z, InCell S c x → InRange z vs → sumOfFunctions φ c x z es a = 0) →
        ∀ k e, es[k]? = some e → ∀ j, InRange j e.indexShape → a k j = 0 := by
      intro a ha
      refine (joinCoeffs_zero es a).1 fun k hk => ?_
      have := h c vs hc hv (fun j => joinCoeffs es a (j.headD 0)) (fun x z hx hz => by
        rw [enriched_function]; exact ha x z hx hz) [k] (by simp only [Elem.indexShape]; exact .cons hk .nil)
      simpa using this
    refine ⟨fun e he c' vs' hc' hv' a ha j hj => ?_, fun a ha k e hk x z _ _ =>
      feFunction_zero e c (fun j hj => key a ha k e hk j hj) x z⟩
    have hp := enriched_parts hc hv e he
    rw [hp.1] at hc'; cases hc'
    rw [hp.2] at hv'; cases hv'
    obtain ⟨k, hk⟩ := List.mem_iff_getElem?.1 he
    have := key (fun i => if i = k then a else fun _ => 0) (fun x z hx hz => by
      rw [sumOfFunctions_single c x z es _ k e hk (fun l f _ hl => by
        simp only [if_neg hl]
        exact feFunction_zero f c (fun _ _ => rfl) x z)]
      simp only [if_true]
      exact ha x z hx hz) k e hk j hj
    simpa using this
  · rintro ⟨h1, h2⟩
    refine independent_enriched h1 fun c' vs' hc' hv' => ?_
    rw [hc] at hc'; cases hc'
    rw [hv] at hv'; cases hv'
    exact h2

/-- **C85.** A sum is direct whenever the summands use different value components. -/
theorem C85_different_components (es : List Elem) (c : Cell) (vs : List Nat) (C : Nat → List Nat → Prop)
    (hdisj : ∀ k l z, k ≠ l → C k z → ¬ C l z)
    (hout : ∀ k e, es[k]? = some e → ∀ x j z, InCell S c x → InRange j e.indexShape → InRange z vs → ¬ C k z →
      basisValue φ e (List.replicate c.spatialDim 0) (c.dimension, 0) x j z = 0) :
    DirectSum φ S es c vs := by
  intro a ha k e hk x z hx hz
  have hzero : ∀ l f, es[l]? = some f → ¬ C l z → feFunction φ f c (a l) x z = 0 := by
    intro l f hl hn
    rw [feFunction_eq]
    exact lsum_zero fun j hj => by rw [hout l f hl x j z hx (mem_ndindex.1 hj) hz hn, mul_zero]
  by_cases hC : C k z
  · rw [← sumOfFunctions_single c x z es a k e hk fun l f hl hne => hzero l f hl (hdisj k l z (Ne.symm hne) hC)]
    exact ha x z hx hz
  · exact hzero k e hk hC

theorem enrichedParts_mixed (f : Nat × Elem → Elem) (hf : ∀ p, ∃ e s o, f p = .mixedSub e s o) (l : List (Nat × Elem)) :
    (l.map f).flatMap enrichedParts = l.map f := by
  induction l with
  | nil => rfl
  | cons p l ih =>
    obtain ⟨e, s, o, h⟩ := hf p
    rw [List.map_cons, List.flatMap_cons, ih, h]
    rfl

theorem take_sum_le (l : List Nat) (k m : Nat) (h : k < m) {n : Nat} (hk : l[k]? = some n) :
    (l.take k).sum + n ≤ (l.take m).sum := by
  have h1 : (l.take (k + 1)).sum = (l.take k).sum + n := by
    rw [List.take_add_one, hk]; simp
  rw [← h1]
  have : l.take (k + 1) = (l.take m).take (k + 1) := by rw [List.take_take, Nat.min_eq_left h]
  rw [this]
  conv_rhs => rw [← List.take_append_drop (k + 1) (l.take m)]
  rw [List.sum_append]
  exact Nat.le_add_right _ _

/-- **C85.** Mixed elements of independent elements are independent, without any condition: the sub-elements use different
components. -/
theorem C85_mixed (es : List Elem) (e : Elem) (h : mkMixed es = .ok e) (hi : ∀ f ∈ es, Independent φ S f) :
    Independent φ S e := by
  obtain ⟨ss, hss⟩ : ∃ ss, Elem.valueShapeL es = .ok ss := by
    unfold mkMixed at h
    rw [bind_ok] at h
    obtain ⟨ss, hss, _⟩ := h
    exact ⟨ss, hss⟩
  rw [C13_mixed_construction es ss hss, Except.ok.injEq] at h
  subst h
  set N := (ss.map List.prod).sum with hN
  set sub : Nat × Elem → Elem := fun p => .mixedSub p.2 N ((ss.map List.prod).take p.1).sum with hsub
  have hv : ∀ (k : Nat) (f : Elem), es[k]? = some f → ∃ s, ss[k]? = some s ∧ f.valueShape = .ok s := by
    clear * - hss
    induction es generalizing ss with
    | nil => simp
    | cons g es ih =>
      obtain ⟨s, ss', h1, h2, rfl⟩ := valueShapeL_cons hss
      intro k f hf
      cases k with
      | zero =>
        simp only [List.getElem?_cons_zero, Option.some.injEq] at hf
        subst hf
        exact ⟨s, rfl, h1⟩
      | succ k => exact ih ss' h2 k f (by simpa using hf)
  have hlen : ∀ k f, es[k]? = some f → k < ss.length := fun k f hf => by
    obtain ⟨s, hs, _⟩ := hv k f hf
    exact (List.getElem?_eq_some_iff.1 hs).1
  have hle : ∀ k f s, es[k]? = some f → ss[k]? = some s → ((ss.map List.prod).take k).sum + s.prod ≤ N := by
    intro k f s hf hs
    have := take_sum_le (ss.map List.prod) k (ss.map List.prod).length (by simpa using hlen k f hf) (n := s.prod)
      (by rw [List.getElem?_map, hs]; rfl)
    rwa [List.take_length] at this
  have hget : ∀ k g, (((List.range es.length).zip es).map sub)[k]? = some g → ∃ f, es[k]? = some f ∧ g = sub (k, f) := by
    intro k g hg
    rw [List.getElem?_map, Option.map_eq_some_iff] at hg
    obtain ⟨⟨k', f⟩, h1, rfl⟩ := hg
    obtain ⟨h1, h2⟩ := List.getElem?_zip_eq_some.1 h1
    have : k' = k := by
      have := List.getElem?_eq_some_iff.1 h1
      obtain ⟨_, h⟩ := this
      simpa using h.symm
    subst this
    exact ⟨f, h2, rfl⟩
  have hind : ∀ g ∈ ((List.range es.length).zip es).map sub, Independent φ S g := by
    intro g hg
    obtain ⟨k, hk⟩ := List.mem_iff_getElem?.1 hg
    obtain ⟨f, hf, rfl⟩ := hget k g hk
    obtain ⟨s, hs, hvs⟩ := hv k f hf
    exact independent_mixedSub hvs (hle k f s hf hs) (hi f (List.mem_of_getElem? hf))
  have hpart := enrichedParts_mixed sub (fun p => ⟨_, _, _, rfl⟩) ((List.range es.length).zip es)
  unfold mkEnriched
  rw [hpart]
  split
  · next g hg => exact hind g (by rw [hg]; simp)
  · next fs hfs =>
    refine independent_enriched hind fun c vs hc hvs => ?_
    refine C85_different_components φ S _ c vs
      (fun k z => ∃ s, ss[k]? = some s ∧ ((ss.map List.prod).take k).sum ≤ z.headD 0 ∧
        z.headD 0 < ((ss.map List.prod).take k).sum + s.prod) ?_ ?_
    · rintro k l z hkl ⟨s, hs, h1, h2⟩ ⟨t, ht, h3, h4⟩
      rcases Nat.lt_or_gt_of_ne hkl with hlt | hlt
      · have := take_sum_le (ss.map List.prod) k l hlt (n := s.prod) (by rw [List.getElem?_map, hs]; rfl)
        omega
      · have := take_sum_le (ss.map List.prod) l k hlt (n := t.prod) (by rw [List.getElem?_map, ht]; rfl)
        omega
    · intro k g hg x j z _ _ _ hn
      obtain ⟨f, hf, rfl⟩ := hget k g hg
      obtain ⟨s, hs, hvs⟩ := hv k f hf
      simp only [hsub, basisValue, vshape_eq hvs]
      rw [if_neg]
      rintro ⟨h1, h2⟩
      exact hn ⟨s, hs, h1, h2⟩

/-- **C85.** Nothing checks that a sum is direct: an element can be enriched with itself, and the result is not independent. -/
theorem C85_repeated (h1 : (1 : K) ≠ 0) (e : Elem) (c : Cell) (vs : List Nat) (hc : e.cell = .ok c) (hv : e.valueShape = .ok vs)
    (he : ¬ IsEnriched e) (hd : 0 < e.spaceDim) :
    mkEnriched [e, e] = .enriched [e, e] ∧ (Elem.enriched [e, e]).cell = .ok c ∧
      (Elem.enriched [e, e]).valueShape = .ok vs ∧ ¬ Independent φ S (.enriched [e, e]) := by
  have hce : (Elem.enriched [e, e]).cell = .ok c := by
    simp [Elem.cell, Elem.cellL, hc, bind, Except.bind, pure, Except.pure, uniqueOf]
  have hve : (Elem.enriched [e, e]).valueShape = .ok vs := by
    simp [Elem.valueShape, Elem.valueShapeL, hv, bind, Except.bind, pure, Except.pure, uniqueOf]
  refine ⟨?_, hce, hve, fun h => ?_⟩
  · have : enrichedParts e = [e] := by
      cases e <;> first | rfl | exact absurd trivial he
    simp [mkEnriched, this]
  · obtain ⟨hi, hs⟩ := (C85_enriched φ S [e, e] c vs hce hve).1 h
    have hj := unravel_bounds (shape := e.indexShape) (k := 0) (by rw [Elem.indexShape_prod]; exact hd)
    have hz := hi e (by simp) c vs hc hv _ (hs (fun k _ => if k = 0 then 1 else -1) (fun x z _ _ => by
      simp only [sumOfFunctions]
      rw [feFunction_eq, feFunction_eq, add_zero, ← lsum_add]
      exact lsum_zero fun j _ => by simp) 0 e rfl) _ hj
    exact h1 (by simpa using hz)

end

/-! ### What a user sees -/

section
variable {K : Type} [CommRing K] [DecidableEq K]

/-- A point set with a single point. -/
def onePoint (x : List K) : PSet K := .points .plain [x] [⟨0, 1⟩]

/-- **C85**, as a client of FInAT sees it: tabulate the element at points of the cell and contract with a tensor of coefficients
(`feExpression`). If the result is zero at every point of the cell, the coefficients are zero. -/
theorem C85_tabulated (F : Fiat K) (R : Rules K) (S : Nat → List K → Prop) (e : Elem) (c : Cell) (vs : List Nat)
    (hs : Shaped e) (hcube : Cubes e) (hl : AllLeaves (PlainLeafOK F 0) e) (hc : e.cell = .ok c) (hv : e.valueShape = .ok vs)
    (h : IndependentTree (leafVals F R) S e) (a : List Nat → K)
    (h0 : ∀ x, InCell S c x → Yields (feExpression F R e (.literal e.indexShape a) (onePoint x)) 1 fun t =>
      ∀ z, InRange z vs → t.eval (fun _ => 0) z = 0) :
    ∀ j, InRange j e.indexShape → a j = 0 := by
  refine independent e hs h c vs hc hv a fun x z hx hz => ?_
  obtain ⟨t, m, ht, h1⟩ := h0 x hx
  have hlen := inCell_length hx
  have hw : (onePoint x).WF 1 := by
    simp only [onePoint, PSet.WF]
    exact ⟨by simp, by simp, x.length, by simp⟩
  have hp : PlainPoints (onePoint x) (c.dimension, 0).1.total := by
    refine ⟨_, _, rfl, by simp, ?_⟩
    intro pt hpt
    simp only [List.mem_singleton] at hpt
    rw [hpt, hlen, Cell.total_dimension]
  have hsp := feExpression_spec (F := F) (R := R) (coeffs := .literal e.indexShape a) hs hc hv hw
    (admits_plain F R 0 e (onePoint x) (c.dimension, 0) c hcube hl hc (cell_isEntity c) hp) rfl (fun _ _ _ => rfl)
  obtain ⟨t', m', ht', _, hden⟩ := hsp
  rw [ht] at ht'
  cases ht'
  have := hden.val (fun _ => 0) z (by simp [onePoint, PSet.Valid, PSet.indices]) hz
  rw [h1 z hz] at this
  rw [this]
  rfl

end

section
variable {K : Type} [Field K] (φ : LeafVals K) (S : Nat → List K → Prop)

/-- The basis functions as vectors of the space of all functions on the cell, numbered as the degrees of freedom are. -/
def basisVector (e : Elem) (c : Cell) (vs : List Nat) (k : Fin e.spaceDim) : {x // InCell S c x} → {z // InRange z vs} → K :=
  fun x z => basisValue φ e (List.replicate c.spatialDim 0) (c.dimension, 0) x.1 (unravel e.indexShape k) z.1

/-- **C85.** `space_dimension()` is the dimension of the space spanned by the basis functions. -/
theorem C85_dimension (e : Elem) (c : Cell) (vs : List Nat) (hs : Shaped e) (h : IndependentTree φ S e) (hc : e.cell = .ok c)
    (hv : e.valueShape = .ok vs) :
    Module.finrank K (Submodule.span K (Set.range (basisVector φ S e c vs))) = e.spaceDim := by
  have hli : LinearIndependent K (basisVector φ S e c vs) := by
    rw [Fintype.linearIndependent_iff]
    intro g hg k
    have hp := Elem.indexShape_prod e
    have := independent e hs h c vs hc hv (fun j => if hj : ravel e.indexShape j < e.spaceDim then g ⟨_, hj⟩ else 0)
      (fun x z hx hz => ?_) (unravel e.indexShape k) (unravel_bounds (by rw [hp]; exact k.2))
    · have hr := ravel_unravel (shape := e.indexShape) (k := k) (by rw [hp]; exact k.2)
      simpa [hr] using this
    · have h1 := congrFun (congrFun hg ⟨x, hx⟩) ⟨z, hz⟩
      simp only [Finset.sum_apply, Pi.smul_apply, smul_eq_mul, Pi.zero_apply] at h1
      rw [Fin.sum_univ_def] at h1
      rw [feFunction_eq, ndindex_eq_map_unravel, lsum_map, hp, ← List.map_coe_finRange_eq_range, lsum_map]
      refine Eq.trans (lsum_congr fun b _ => ?_) h1
      have hr := ravel_unravel (shape := e.indexShape) (k := b) (by rw [hp]; exact b.2)
      simp [hr, basisVector]
  rw [finrank_span_eq_card hli, Fintype.card_fin]

end

/-! ### The hypotheses are met -/

namespace IndependentExample

/-- Functions are considered at all points. -/
def allPoints : Nat → List ℤ → Prop := fun _ _ => True

theorem leaf_eq (l : Leaf) (j : Nat) (x : List ℤ) (hl : l.cell = .simplex 1) :
    basisValue (leafVals exFiat exRules) (.leaf l) (List.replicate (Cell.simplex 1).spatialDim 0)
      ((Cell.simplex 1).dimension, 0) x [j] [] = evalAt x (exPoly l j []) := rfl

theorem cg1_independent : Independent (leafVals exFiat exRules) allPoints (.leaf cg1) := by
  intro c vs hc hv a ha j hj
  cases hc
  cases hv
  have h0 := ha [0] [] ⟨rfl, trivial⟩ .nil
  have h1 := ha [1] [] ⟨rfl, trivial⟩ .nil
  rw [feFunction_eq] at h0 h1
  have hi : ndindex (Elem.leaf cg1).indexShape = [[0], [1]] := rfl
  have hc : cg1.cell = .simplex 1 := rfl
  rw [hi, hc] at h0 h1
  simp only [lsum_cons, lsum_nil, leaf_eq cg1 _ _ hc] at h0 h1
  simp [exPoly, cg1, evalAt] at h0 h1
  cases hj with
  | @cons k _ t _ hk ht =>
  cases ht
  have hk : k < 2 := hk
  obtain rfl | rfl : k = 0 ∨ k = 1 := by omega
  · exact h0
  · exact h1

theorem dg0_independent : Independent (leafVals exFiat exRules) allPoints (.leaf dg0) := by
  intro c vs hc hv a ha j hj
  cases hc
  cases hv
  have h0 := ha [0] [] ⟨rfl, trivial⟩ .nil
  rw [feFunction_eq] at h0
  have hi : ndindex (Elem.leaf dg0).indexShape = [[0]] := rfl
  have hc : dg0.cell = .simplex 1 := rfl
  rw [hi, hc] at h0
  simp only [lsum_cons, lsum_nil, leaf_eq dg0 _ _ hc] at h0
  simp [exPoly, dg0, evalAt] at h0
  cases hj with
  | @cons k _ t _ hk ht =>
  cases ht
  have hk : k < 1 := hk
  obtain rfl : k = 0 := by omega
  exact h0

/-- The horizontal and the vertical part of the lowest order Raviart-Thomas element of the square. -/
def parts : List Elem := [.hdiv (.tensorProduct [.leaf cg1, .leaf dg0]), .hdiv (.tensorProduct [.leaf dg0, .leaf cg1])]

/-- The Raviart-Thomas element of the quadrilateral: four functions. -/
def rt : Elem := .flattened (.enriched parts)

theorem parts_shaped : ∀ e ∈ parts, Shaped e := by
  intro e he
  simp only [parts, List.mem_cons, List.not_mem_nil, or_false] at he
  rcases he with rfl | rfl
  · simp only [Shaped]
    exact ⟨⟨by simp, by simp [Shaped]⟩, _, _, _, rfl, rfl, rfl, rfl, by simp, by simp⟩
  · simp only [Shaped]
    exact ⟨⟨by simp, by simp [Shaped]⟩, _, _, _, rfl, rfl, rfl, rfl, by simp, by simp⟩

theorem pair_tr : FormPair (.leaf dg0) (.leaf cg1) (.simplex 1) 1 0 [] :=
  ⟨rfl, rfl, .inl rfl, rfl, rfl, by decide, by decide, rfl, .inl ⟨rfl, rfl, by decide⟩⟩

theorem parts_direct : DirectSum (leafVals exFiat exRules) allPoints parts (.prod [.simplex 1, .simplex 1]) [2] := by
  refine C85_different_components _ _ _ _ _ (fun k z => z = [k]) (fun k l z hkl h1 h2 => ?_) (fun k e hk x j z _ _ hz hn => ?_)
  · rw [h1] at h2
    exact hkl (by simpa using h2)
  · cases hz with
    | @cons i _ t _ hi ht =>
    cases ht
    match k, hk with
    | 0, hk =>
      simp only [parts, List.getElem?_cons_zero, Option.some.injEq] at hk
      subst hk
      obtain rfl : i = 1 := by simp at hn; omega
      rfl
    | 1, hk =>
      simp only [parts, List.getElem?_cons_succ, List.getElem?_cons_zero, Option.some.injEq] at hk
      subst hk
      obtain rfl : i = 0 := by simp at hn; omega
      rfl
    | k + 2, hk => simp [parts] at hk

theorem rt_composed : IndependentTree (leafVals exFiat exRules) allPoints rt := by
  simp only [rt, IndependentTree]
  refine ⟨⟨?_, fun c vs hc hv => ?_⟩, fun c hc => ?_⟩
  · simp only [parts, IndependentTreeL, IndependentTree]
    exact ⟨⟨⟨cg1_independent, dg0_independent, trivial⟩, placement_hdiv pair_rt rfl⟩,
      ⟨⟨dg0_independent, cg1_independent, trivial⟩, placement_hdiv pair_tr rfl⟩, trivial⟩
  · cases hc; cases hv; exact parts_direct
  · cases hc; exact ⟨Nat.le_refl 1, Nat.le_refl 1, trivial⟩

theorem rt_shaped : Shaped rt := by
  simp only [rt, Shaped]
  exact parts_shaped

/-- The four functions of the Raviart-Thomas element are independent. -/
example : Independent (leafVals exFiat exRules) allPoints rt := C85_independent _ _ rt rt_shaped rt_composed

/-- The mixed element of Raviart-Thomas and the vector-valued Raviart-Thomas functions: 4 + 12 functions with 8 components. -/
example : ∃ e, mkMixed [rt, .tensorFE rt [3] true] = .ok e ∧ e.spaceDim = 16 ∧
    Independent (leafVals exFiat exRules) allPoints e := by
  refine ⟨_, rfl, rfl, C85_mixed _ _ [rt, .tensorFE rt [3] true] _ rfl ?_⟩
  intro f hf
  simp only [List.mem_cons, List.not_mem_nil, or_false] at hf
  rcases hf with rfl | rfl
  · exact C85_independent _ _ rt rt_shaped rt_composed
  · exact C85_independent _ _ _ (by simp only [Shaped]; exact ⟨rt_shaped, by simp⟩) (by simpa only [IndependentTree] using rt_composed)

/-- The hypotheses of the theorem about tables: an element of the square with 2 * 2 * 3 functions. -/
example (a : List Nat → ℤ) := C85_tabulated exFiat exRules allPoints
  (.tensorFE (.flattened (.tensorProduct [.leaf cg1, .leaf cg1])) [3] false) .quad [3]
  (by simp [Shaped]) (by simp only [Cubes, CubesL]; exact ⟨⟨trivial, trivial, trivial⟩, fun c hc => by cases hc; exact ⟨Nat.le_refl 1, Nat.le_refl 1, trivial⟩⟩)
  (by simp only [AllLeaves, AllLeavesL]; exact ⟨(exLeaf 0 cg1 (.inl rfl)).1, (exLeaf 0 cg1 (.inl rfl)).1, trivial⟩) rfl rfl
  (by simp only [IndependentTree, IndependentTreeL]; exact ⟨⟨cg1_independent, cg1_independent, trivial⟩,
    fun c hc => by cases hc; exact ⟨Nat.le_refl 1, Nat.le_refl 1, trivial⟩⟩) a

/-- Continuous and constant functions of the interval do not have a direct sum: the sum of the two continuous basis functions is
the constant one. (FInAT makes an element with three functions of this sum.) -/
example : ¬ Independent (leafVals exFiat exRules) allPoints (.enriched [.leaf cg1, .leaf dg0]) := by
  intro h
  have := (C85_enriched _ _ _ (.simplex 1) [] rfl rfl).1 h
  have h2 := this.2 (fun k _ => if k = 0 then 1 else -1) (fun x z _ hz => by
    cases hz
    simp only [sumOfFunctions]
    rw [feFunction_eq, feFunction_eq]
    have hi : ndindex (Elem.leaf cg1).indexShape = [[0], [1]] := rfl
    have hi' : ndindex (Elem.leaf dg0).indexShape = [[0]] := rfl
    rw [hi, hi']
    simp only [lsum_cons, lsum_nil, leaf_eq cg1 _ _ rfl, leaf_eq dg0 _ _ rfl]
    simp [exPoly, cg1, dg0, evalAt]) 1 (.leaf dg0) rfl
  have := dg0_independent (.simplex 1) [] rfl rfl _ h2 [0] (.cons (by decide) .nil)
  simp at this

/-- Enriching an element with itself. -/
example := C85_repeated (leafVals exFiat exRules) allPoints (by decide) rt .quad [2] rfl rfl (fun h => h) (by decide)

/-- The hat functions of the interval with rational coordinates. -/
def hats : LeafVals ℚ := ⟨fun _ _ _ x i _ => if i = [0] then 1 - x.headD 0 else x.headD 0, fun _ _ _ _ _ => 0⟩

/-- The unit interval. -/
def unitInterval : Nat → List ℚ → Prop := fun _ x => ∀ t ∈ x, 0 ≤ t ∧ t ≤ 1

theorem hats_independent : Independent hats unitInterval (.leaf cg1) := by
  intro c vs hc hv a ha j hj
  cases hc
  cases hv
  have h0 := ha [0] [] ⟨rfl, by simp [unitInterval]⟩ .nil
  have h1 := ha [1] [] ⟨rfl, by simp [unitInterval]⟩ .nil
  rw [feFunction_eq] at h0 h1
  have hi : ndindex (Elem.leaf cg1).indexShape = [[0], [1]] := rfl
  rw [hi] at h0 h1
  simp [basisValue, hats, lsum_cons, lsum_nil] at h0 h1
  cases hj with
  | @cons k _ t _ hk ht =>
  cases ht
  have hk : k < 2 := hk
  obtain rfl | rfl : k = 0 ∨ k = 1 := by omega
  · exact h0
  · exact h1

/-- The bilinear functions of the unit square span a space of dimension 4, and there are 8 for vectors. -/
example : Module.finrank ℚ (Submodule.span ℚ (Set.range (basisVector hats unitInterval
    (.tensorFE (.flattened (.tensorProduct [.leaf cg1, .leaf cg1])) [2] false) .quad [2]))) = 8 :=
  C85_dimension hats unitInterval _ .quad [2] (by simp [Shaped])
    (by simp only [IndependentTree, IndependentTreeL]; exact ⟨⟨hats_independent, hats_independent, trivial⟩,
      fun c hc => by cases hc; exact ⟨Nat.le_refl 1, Nat.le_refl 1, trivial⟩⟩) rfl rfl

end IndependentExample

end FInAT.Props
