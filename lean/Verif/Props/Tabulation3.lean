import Verif.Props.Tabulation2

/-!
# Tabulation: C15-C17
-/

namespace FInAT.Props

open FInAT Spec Elem

variable {K : Type} [CommRing K] {P : Type} {I : Interp K P} {φ : LeafVals K}

/-! ## C15 -/

/-- **C15.** The table of `TensorFiniteElement(e, shape)`: basis function `(i, v)` has in tensor
component `w` (and component `z` of the base element) the value of basis function `i` of `e` when
`v = w` and zero otherwise, for every derivative and point; with `transpose=True` the same function
has the index `(v, i)`. -/
theorem C15_component_basis (S : Sem I φ) (e : Elem) (shape : List Nat) (transpose : Bool)
    (hs : Shaped e) (hne : shape ≠ []) (order : Nat) (p : P) (entity : Option (Dim × Nat)) (c : Cell)
    (vs : List Nat) (n m : Nat) (hp : S.wf n p) (hm : n ≤ m) (hc : e.cell = .ok c)
    (hv : e.valueShape = .ok vs) (ha : Admits S order e p (entity.getD (c.dimension, 0))) :
    Yields (evaluate I (.tensorFE e shape transpose) order p entity) m fun T =>
      Yields (evaluate I e order p entity) m fun Te =>
        (∀ α, α ∈ T.keys ↔ α ∈ Te.keys) ∧
        ∀ α t te, T.get? α = some t → Te.get? α = some te → ∀ ρ i v w z, S.valid p ρ →
          InRange i e.indexShape → InRange v shape → InRange w shape → InRange z vs →
          t.eval ρ ((if transpose then v ++ i else i ++ v) ++ (w ++ z)) =
            if v = w then te.eval ρ (i ++ z) else 0 := by
  obtain ⟨T, m', h1, hT⟩ := tabulation S (.tensorFE e shape transpose)
    (by simp only [Shaped]; exact ⟨hs, hne⟩) order p entity c (shape ++ vs) n m hp hm
    (by simpa only [Elem.cell] using hc)
    (by simp only [Elem.valueShape, hv, bind, Except.bind, pure, Except.pure])
    (by simpa only [Admits] using ha)
  obtain ⟨Te, m2, h2, hTe⟩ := tabulation S e hs order p entity c vs n m hp hm hc hv ha
  refine ⟨T, m', h1, Te, m2, h2, fun α => by rw [hT.keys, hTe.keys], ?_⟩
  intro α t te ht hte ρ i v w z hV hi hv' hw hz
  have hli : i.length = e.indexShape.length := InB.length hi
  have hlv : v.length = shape.length := InB.length hv'
  have hlw : w.length = shape.length := InB.length hw
  have hr : InRange (if transpose then v ++ i else i ++ v) (Elem.tensorFE e shape transpose).indexShape := by
    simp only [Elem.indexShape]
    cases transpose
    · exact InB.append hi hv'
    · exact InB.append hv' hi
  rw [hT.value α t ht ρ _ _ hV hr (InB.append hw hz), hTe.value α te hte ρ i z hV hi hz]
  cases transpose
  · simp only [basisValue, Bool.false_eq_true, if_false]
    rw [← hli, ← hlw, List.take_left, List.drop_left, List.take_left, List.drop_left]
  · simp only [basisValue, if_true]
    rw [← hlw, List.take_left, List.drop_left, hlw, ← hlv, List.take_left, List.drop_left]

/-! ## C16 -/

/-- What the two wrappers are used for: a product of an element `a` on a cell of dimension one or two
with an element `b` on the interval, form degrees `ka`, `kb` not above the dimensions; 0-forms and
top-degree forms are scalar with affine pullback, 1-forms in two dimensions are vectors with a Piola
pullback. `vs` is the value shape of the product. -/
structure FormPair (a b : Elem) (ca : Cell) (ka kb : Nat) (vs : List Nat) : Prop where
  cellA : a.cell = .ok ca
  cellB : b.cell = .ok (.simplex 1)
  dimA : ca.spatialDim = 1 ∨ ca.spatialDim = 2
  degA : a.formdegree = .ok (some ka)
  degB : b.formdegree = .ok (some kb)
  leA : ka ≤ ca.spatialDim
  leB : kb ≤ 1
  shape : (Elem.tensorProduct [a, b]).valueShape = .ok vs
  kind : ((Elem.tensorProduct [a, b]).mapping = some .affine ∧ vs = [] ∧
      (ca.spatialDim = 2 → ka ≠ 1)) ∨
    (((Elem.tensorProduct [a, b]).mapping = some .contravariantPiola ∨
      (Elem.tensorProduct [a, b]).mapping = some .covariantPiola) ∧ vs = [2] ∧ ca.spatialDim = 2 ∧ ka = 1)

/-- The list of components is a signed placement: it has `d` entries and preserves inner products. -/
def Isometric (K : Type) [CommRing K] (comps : Except Err (List Comp)) (d : Nat) (vs : List Nat) : Prop :=
  ∀ F G : List Nat → K,
    ((List.range d).map fun j => wrapValue comps F j * wrapValue comps G j).sum =
      ((ndindex vs).map fun z => F z * G z).sum

theorem FormPair.cell {a b : Elem} {ca : Cell} {ka kb : Nat} {vs : List Nat}
    (h : FormPair a b ca ka kb vs) : (Elem.tensorProduct [a, b]).cell = .ok (.prod [ca, .simplex 1]) := by
  simp [Elem.cell, Elem.cellL, h.cellA, h.cellB, bind, Except.bind, pure, Except.pure]

theorem FormPair.formdegreeL {a b : Elem} {ca : Cell} {ka kb : Nat} {vs : List Nat}
    (h : FormPair a b ca ka kb vs) : Elem.formdegreeL [a, b] = .ok [some ka, some kb] := by
  simp [Elem.formdegreeL, h.degA, h.degB, bind, Except.bind, pure, Except.pure]

theorem spatialDim_pair (ca : Cell) : (Cell.prod [ca, .simplex 1]).spatialDim = ca.spatialDim + 1 := by
  simp [Cell.spatialDim, Cell.spatialDimL]

theorem ndindex_nil : ndindex [] = [[]] := by decide
theorem ndindex_two : ndindex [2] = [[0], [1]] := by decide

theorem hdiv_select {a b : Elem} {ca : Cell} {ka kb : Nat} {vs : List Nat}
    (h : FormPair a b ca ka kb vs) (hk : ka + kb = ca.spatialDim) :
    ∃ comps, selectHdiv [a, b] = .ok comps ∧ comps.length = ca.spatialDim + 1 ∧
      (∀ neg ix, Comp.entry neg ix ∈ comps → InRange ix vs) ∧
      Isometric K (.ok comps) (ca.spatialDim + 1) vs := by
  have hd := h.dimA
  have hkb := h.leB
  simp only [selectHdiv, h.cellB, h.degA, h.degB, bind, Except.bind, ne_eq, not_true_eq_false, if_false]
  rcases h.kind with ⟨hm, rfl, h2⟩ | ⟨hm, rfl, hd2, rfl⟩
  · rcases hd with hd | hd
    · have : (ka = 0 ∧ kb = 1) ∨ (ka = 1 ∧ kb = 0) := by omega
      rcases this with ⟨rfl, rfl⟩ | ⟨rfl, rfl⟩
      · refine ⟨_, rfl, by simp [hd], by simp [InRange], ?_⟩
        intro F G
        simp [hd, ndindex_nil, wrapValue, compValue, List.range_succ]
      · refine ⟨_, rfl, by simp [hd], by simp [InRange], ?_⟩
        intro F G
        simp [hd, ndindex_nil, wrapValue, compValue, List.range_succ]
    · have := h2 hd
      obtain ⟨rfl, rfl⟩ : ka = 2 ∧ kb = 0 := by omega
      refine ⟨_, rfl, by simp [hd], by simp [InRange], ?_⟩
      intro F G
      simp [hd, ndindex_nil, wrapValue, compValue, List.range_succ]
  · obtain rfl : kb = 1 := by omega
    rcases hm with hm | hm
    · rw [hm]
      refine ⟨_, rfl, by simp [hd2], by simp [InRange], ?_⟩
      intro F G
      simp [hd2, ndindex_two, wrapValue, compValue, List.range_succ]
    · rw [hm]
      refine ⟨_, rfl, by simp [hd2], by simp [InRange], ?_⟩
      intro F G
      simp [hd2, ndindex_two, wrapValue, compValue, List.range_succ, add_comm]

theorem hcurl_select {a b : Elem} {ca : Cell} {ka kb : Nat} {vs : List Nat}
    (h : FormPair a b ca ka kb vs) (hk : ka + kb = 1) :
    ∃ comps, selectHcurl [a, b] = .ok comps ∧ comps.length = ca.spatialDim + 1 ∧
      (∀ neg ix, Comp.entry neg ix ∈ comps → InRange ix vs) ∧
      Isometric K (.ok comps) (ca.spatialDim + 1) vs := by
  have hd := h.dimA
  have hkb := h.leB
  simp only [selectHcurl, h.cellB, h.degA, h.degB, bind, Except.bind, ne_eq, not_true_eq_false, if_false,
    h.cell, spatialDim_pair]
  rcases h.kind with ⟨hm, rfl, h2⟩ | ⟨hm, rfl, hd2, rfl⟩
  · rw [hm]
    rcases hd with hd | hd
    · have : (ka = 0 ∧ kb = 1) ∨ (ka = 1 ∧ kb = 0) := by omega
      rcases this with ⟨rfl, rfl⟩ | ⟨rfl, rfl⟩
      · refine ⟨_, rfl, by simp [hd], by simp [InRange, hd], ?_⟩
        intro F G
        simp [hd, ndindex_nil, wrapValue, compValue, List.range_succ]
      · refine ⟨_, rfl, by simp [hd], by simp [InRange], ?_⟩
        intro F G
        simp [hd, ndindex_nil, wrapValue, compValue, List.range_succ]
    · have := h2 hd
      obtain ⟨rfl, rfl⟩ : ka = 0 ∧ kb = 1 := by omega
      refine ⟨_, rfl, by simp [hd], by simp [InRange, hd], ?_⟩
      intro F G
      simp [hd, ndindex_nil, wrapValue, compValue, List.range_succ]
  · obtain rfl : kb = 0 := by omega
    rcases hm with hm | hm
    · rw [hm]
      refine ⟨_, rfl, by simp [hd2], by simp [InRange], ?_⟩
      intro F G
      simp [hd2, ndindex_two, wrapValue, compValue, List.range_succ, add_comm]
    · rw [hm]
      refine ⟨_, rfl, by simp [hd2], by simp [InRange], ?_⟩
      intro F G
      simp [hd2, ndindex_two, wrapValue, compValue, List.range_succ]

/-- **C16**, construction of `HDivElement`: accepted exactly when the form degrees add up to the
spatial dimension minus one; otherwise `ValueError`. No assertion fails. (Missing for the full claim:
scalar 1-forms on two-dimensional cells, where an assertion fails, see `C16_hdiv_assertion`.) -/
theorem C16_hdiv_construction_partial (a b : Elem) (ca : Cell) (ka kb : Nat) (vs : List Nat)
    (h : FormPair a b ca ka kb vs) :
    mkHDiv (.tensorProduct [a, b]) =
      if ka + kb = ca.spatialDim + 1 - 1 then .ok (.hdiv (.tensorProduct [a, b])) else .error .valueError := by
  simp only [mkHDiv, h.formdegreeL, bind, Except.bind, h.cell, spatialDim_pair]
  by_cases hk : ka + kb = ca.spatialDim
  · obtain ⟨comps, hsel, _⟩ := hdiv_select (K := ℤ) h hk
    rw [if_neg (by simp), if_neg (by simp; omega), hsel, if_pos (by omega)]
    rfl
  · rw [if_neg (by simp), if_pos (by simp; omega), if_neg (by omega)]

/-- **C16**, construction of `HCurlElement`: accepted exactly when the form degrees add up to one;
otherwise `ValueError`. No assertion fails. (Missing for the full claim: scalar 1-forms on
two-dimensional cells, where it is false, see `C16_hcurl_short_vector`.) -/
theorem C16_hcurl_construction_partial (a b : Elem) (ca : Cell) (ka kb : Nat) (vs : List Nat)
    (h : FormPair a b ca ka kb vs) :
    mkHCurl (.tensorProduct [a, b]) =
      if ka + kb = 1 then .ok (.hcurl (.tensorProduct [a, b])) else .error .valueError := by
  simp only [mkHCurl, h.formdegreeL, bind, Except.bind]
  by_cases hk : ka + kb = 1
  · obtain ⟨comps, hsel, _⟩ := hcurl_select (K := ℤ) h hk
    rw [if_neg (by simp), if_neg (by simp; omega), hsel, if_pos hk]
    rfl
  · rw [if_neg (by simp), if_pos (by simp; omega), if_neg hk]

/-- **C16**, unknown form degrees: for any product one of whose factors has form degree `None`, both
constructors raise `ValueError`. -/
theorem C16_unknown_formdegree (fs : List Elem) (ks : List (Option Nat)) (hk : Elem.formdegreeL fs = .ok ks)
    (hn : none ∈ ks) :
    mkHDiv (.tensorProduct fs) = .error .valueError ∧ mkHCurl (.tensorProduct fs) = .error .valueError := by
  simp only [mkHDiv, mkHCurl, hk, bind, Except.bind]
  have : ks.contains none = true := by simpa using hn
  simp only [this, if_true, and_self]

/-- **C16**, wrong form degrees: for any product whose form degrees do not add up to `n - 1` (resp.
`1`), the constructor raises `ValueError`. -/
theorem C16_wrong_formdegree (fs : List Elem) (ks : List Nat) (c : Cell)
    (hk : Elem.formdegreeL fs = .ok (ks.map some)) (hc : (Elem.tensorProduct fs).cell = .ok c) :
    ((ks.sum : Int) ≠ (c.spatialDim : Int) - 1 → mkHDiv (.tensorProduct fs) = .error .valueError) ∧
    (ks.sum ≠ 1 → mkHCurl (.tensorProduct fs) = .error .valueError) := by
  have hs : ((ks.map some).filterMap id).sum = ks.sum := by simp [List.filterMap_map]
  have hn : (ks.map some).contains none = false := by simp
  constructor
  · intro h
    simp only [mkHDiv, hk, bind, Except.bind, hc, hn, hs, Bool.false_eq_true, if_false]
    rw [if_pos h]
  · intro h
    simp only [mkHCurl, hk, bind, Except.bind, hn, hs, Bool.false_eq_true, if_false]
    rw [if_pos h]

theorem headD_singleton {j : Nat} : [j].headD 0 = j := rfl

/-- **C16**, values of the H(div) wrapper: its table has vectors with exactly `n` components, and the
inner product of any two of its values (basis functions, derivatives, points) is the inner product of
the corresponding wrapped values. -/
theorem C16_hdiv_values (S : Sem I φ) (a b : Elem) (ca : Cell) (ka kb : Nat) (vs : List Nat)
    (h : FormPair a b ca ka kb vs) (hs : Shaped (.tensorProduct [a, b])) (hk : ka + kb = ca.spatialDim + 1 - 1)
    (order : Nat) (p : P) (entity : Option (Dim × Nat)) (n m : Nat) (hp : S.wf n p) (hm : n ≤ m)
    (ha : Admits S order (.tensorProduct [a, b]) p
      (entity.getD ((Cell.prod [ca, .simplex 1]).dimension, 0))) :
    Yields (evaluate I (.hdiv (.tensorProduct [a, b])) order p entity) m fun T =>
      Yields (evaluate I (.tensorProduct [a, b]) order p entity) m fun Tw =>
        (∀ α, α ∈ T.keys ↔ α ∈ Tw.keys) ∧
        (∀ α t, T.get? α = some t →
          t.shape = (Elem.tensorProduct [a, b]).indexShape ++ [ca.spatialDim + 1]) ∧
        ∀ α t tw α' t' tw', T.get? α = some t → Tw.get? α = some tw → T.get? α' = some t' →
          Tw.get? α' = some tw' → ∀ ρ ρ' i i', S.valid p ρ → S.valid p ρ' →
          InRange i (Elem.tensorProduct [a, b]).indexShape → InRange i' (Elem.tensorProduct [a, b]).indexShape →
          ((List.range (ca.spatialDim + 1)).map fun j => t.eval ρ (i ++ [j]) * t'.eval ρ' (i' ++ [j])).sum =
            ((ndindex vs).map fun z => tw.eval ρ (i ++ z) * tw'.eval ρ' (i' ++ z)).sum := by
  obtain ⟨comps, hsel, hlen, hin, hiso⟩ := hdiv_select (K := K) h (by omega)
  have hsh : Shaped (.hdiv (.tensorProduct [a, b])) := by
    simp only [Shaped] at hs ⊢
    refine ⟨hs, comps, vs, _, hsel, h.shape, h.cell, by rw [hlen, spatialDim_pair], ?_, hin⟩
    intro h0; rw [h0] at hlen; simp at hlen
  obtain ⟨T, m', h1, hT⟩ := tabulation S _ hsh order p entity _ [ca.spatialDim + 1] n m hp hm
    (by simpa only [Elem.cell] using h.cell)
    (by simp [Elem.valueShape, h.cell, spatialDim_pair, bind, Except.bind, pure, Except.pure])
    (by simpa only [Admits, S.factor_forget] using ha)
  obtain ⟨Tw, m2, h2, hTw⟩ := tabulation S _ hs order p entity _ vs n m hp hm h.cell h.shape ha
  refine ⟨T, m', h1, Tw, m2, h2, fun α => by rw [hT.keys, hTw.keys], ?_, ?_⟩
  · intro α t ht
    rw [hT.shape α t ht]; simp only [Elem.indexShape]
  · intro α t tw α' t' tw' ht htw ht' htw' ρ ρ' i i' hV hV' hi hi'
    have hi1 : InRange i (Elem.hdiv (.tensorProduct [a, b])).indexShape := by
      simpa only [Elem.indexShape] using hi
    have hi2 : InRange i' (Elem.hdiv (.tensorProduct [a, b])).indexShape := by
      simpa only [Elem.indexShape] using hi'
    have e1 : ∀ j ∈ List.range (ca.spatialDim + 1), t.eval ρ (i ++ [j]) * t'.eval ρ' (i' ++ [j]) =
        wrapValue (.ok comps) (basisValue φ (.tensorProduct [a, b]) α
          (entity.getD ((Cell.prod [ca, .simplex 1]).dimension, 0)) (S.at_ p ρ) i) j *
        wrapValue (.ok comps) (basisValue φ (.tensorProduct [a, b]) α'
          (entity.getD ((Cell.prod [ca, .simplex 1]).dimension, 0)) (S.at_ p ρ') i') j := by
      intro j hj
      have hj' : j < ca.spatialDim + 1 := List.mem_range.1 hj
      rw [hT.value α t ht ρ i [j] hV hi1 (.cons hj' .nil), hT.value α' t' ht' ρ' i' [j] hV' hi2 (.cons hj' .nil)]
      rw [basisValue, basisValue, headD_singleton, factorsOf, hsel]
    rw [List.map_congr_left e1, hiso]
    refine congrArg List.sum (List.map_congr_left fun z hz => ?_)
    have hz' : InRange z vs := mem_ndindex.1 hz
    rw [hTw.value α tw htw ρ i z hV hi hz', hTw.value α' tw' htw' ρ' i' z hV' hi' hz']

/-- **C16**, values of the H(curl) wrapper. (Missing for the full claim: scalar 1-forms on
two-dimensional cells, where it is false, see `C16_hcurl_short_vector`.) -/
theorem C16_hcurl_values_partial (S : Sem I φ) (a b : Elem) (ca : Cell) (ka kb : Nat) (vs : List Nat)
    (h : FormPair a b ca ka kb vs) (hs : Shaped (.tensorProduct [a, b])) (hk : ka + kb = 1)
    (order : Nat) (p : P) (entity : Option (Dim × Nat)) (n m : Nat) (hp : S.wf n p) (hm : n ≤ m)
    (ha : Admits S order (.tensorProduct [a, b]) p
      (entity.getD ((Cell.prod [ca, .simplex 1]).dimension, 0))) :
    Yields (evaluate I (.hcurl (.tensorProduct [a, b])) order p entity) m fun T =>
      Yields (evaluate I (.tensorProduct [a, b]) order p entity) m fun Tw =>
        (∀ α, α ∈ T.keys ↔ α ∈ Tw.keys) ∧
        (∀ α t, T.get? α = some t →
          t.shape = (Elem.tensorProduct [a, b]).indexShape ++ [ca.spatialDim + 1]) ∧
        ∀ α t tw α' t' tw', T.get? α = some t → Tw.get? α = some tw → T.get? α' = some t' →
          Tw.get? α' = some tw' → ∀ ρ ρ' i i', S.valid p ρ → S.valid p ρ' →
          InRange i (Elem.tensorProduct [a, b]).indexShape → InRange i' (Elem.tensorProduct [a, b]).indexShape →
          ((List.range (ca.spatialDim + 1)).map fun j => t.eval ρ (i ++ [j]) * t'.eval ρ' (i' ++ [j])).sum =
            ((ndindex vs).map fun z => tw.eval ρ (i ++ z) * tw'.eval ρ' (i' ++ z)).sum := by
  obtain ⟨comps, hsel, hlen, hin, hiso⟩ := hcurl_select (K := K) h hk
  have hsh : Shaped (.hcurl (.tensorProduct [a, b])) := by
    simp only [Shaped] at hs ⊢
    refine ⟨hs, comps, vs, _, hsel, h.shape, h.cell, by rw [hlen, spatialDim_pair], ?_, hin⟩
    intro h0; rw [h0] at hlen; simp at hlen
  obtain ⟨T, m', h1, hT⟩ := tabulation S _ hsh order p entity _ [ca.spatialDim + 1] n m hp hm
    (by simpa only [Elem.cell] using h.cell)
    (by simp [Elem.valueShape, h.cell, spatialDim_pair, bind, Except.bind, pure, Except.pure])
    (by simpa only [Admits, S.factor_forget] using ha)
  obtain ⟨Tw, m2, h2, hTw⟩ := tabulation S _ hs order p entity _ vs n m hp hm h.cell h.shape ha
  refine ⟨T, m', h1, Tw, m2, h2, fun α => by rw [hT.keys, hTw.keys], ?_, ?_⟩
  · intro α t ht
    rw [hT.shape α t ht]; simp only [Elem.indexShape]
  · intro α t tw α' t' tw' ht htw ht' htw' ρ ρ' i i' hV hV' hi hi'
    have hi1 : InRange i (Elem.hcurl (.tensorProduct [a, b])).indexShape := by
      simpa only [Elem.indexShape] using hi
    have hi2 : InRange i' (Elem.hcurl (.tensorProduct [a, b])).indexShape := by
      simpa only [Elem.indexShape] using hi'
    have e1 : ∀ j ∈ List.range (ca.spatialDim + 1), t.eval ρ (i ++ [j]) * t'.eval ρ' (i' ++ [j]) =
        wrapValue (.ok comps) (basisValue φ (.tensorProduct [a, b]) α
          (entity.getD ((Cell.prod [ca, .simplex 1]).dimension, 0)) (S.at_ p ρ) i) j *
        wrapValue (.ok comps) (basisValue φ (.tensorProduct [a, b]) α'
          (entity.getD ((Cell.prod [ca, .simplex 1]).dimension, 0)) (S.at_ p ρ') i') j := by
      intro j hj
      have hj' : j < ca.spatialDim + 1 := List.mem_range.1 hj
      rw [hT.value α t ht ρ i [j] hV hi1 (.cons hj' .nil), hT.value α' t' ht' ρ' i' [j] hV' hi2 (.cons hj' .nil)]
      rw [basisValue, basisValue, headD_singleton, factorsOf, hsel]
    rw [List.map_congr_left e1, hiso]
    refine congrArg List.sum (List.map_congr_left fun z hz => ?_)
    have hz' : InRange z vs := mem_ndindex.1 hz
    rw [hTw.value α tw htw ρ i z hV hi hz', hTw.value α' tw' htw' ρ' i' z hV' hi' hz']

/-- Shapes of the two wrapped tables on a product of two intervals. -/
theorem wrapped_table {S : Sem I φ} {a b : Elem} {ca : Cell} {ka kb : Nat} {vs : List Nat}
    (h : FormPair a b ca ka kb vs) (hs : Shaped (.tensorProduct [a, b])) {order : Nat} {p : P}
    {entity : Option (Dim × Nat)} {n m : Nat} (hp : S.wf n p) (hm : n ≤ m)
    (ha : Admits S order (.tensorProduct [a, b]) p
      (entity.getD ((Cell.prod [ca, .simplex 1]).dimension, 0))) :
    (ka + kb = ca.spatialDim →
      Yields (evaluate I (.hdiv (.tensorProduct [a, b])) order p entity) m fun T =>
        IsTable (S.valid p) T (ca.spatialDim + 1) order (Elem.tensorProduct [a, b]).indexShape
          [ca.spatialDim + 1] fun α ρ i z =>
            wrapValue (selectHdiv [a, b]) (basisValue φ (.tensorProduct [a, b]) α
              (entity.getD ((Cell.prod [ca, .simplex 1]).dimension, 0)) (S.at_ p ρ) i) (z.headD 0)) ∧
    (ka + kb = 1 →
      Yields (evaluate I (.hcurl (.tensorProduct [a, b])) order p entity) m fun T =>
        IsTable (S.valid p) T (ca.spatialDim + 1) order (Elem.tensorProduct [a, b]).indexShape
          [ca.spatialDim + 1] fun α ρ i z =>
            wrapValue (selectHcurl [a, b]) (basisValue φ (.tensorProduct [a, b]) α
              (entity.getD ((Cell.prod [ca, .simplex 1]).dimension, 0)) (S.at_ p ρ) i) (z.headD 0)) := by
  constructor
  · intro hk
    obtain ⟨comps, hsel, hlen, hin, _⟩ := hdiv_select (K := K) h hk
    have hsh : Shaped (.hdiv (.tensorProduct [a, b])) := by
      simp only [Shaped] at hs ⊢
      refine ⟨hs, comps, vs, _, hsel, h.shape, h.cell, by rw [hlen, spatialDim_pair], ?_, hin⟩
      intro h0; rw [h0] at hlen; simp at hlen
    obtain ⟨T, m', h1, hT⟩ := tabulation S _ hsh order p entity _ [ca.spatialDim + 1] n m hp hm
      (by simpa only [Elem.cell] using h.cell)
      (by simp [Elem.valueShape, h.cell, spatialDim_pair, bind, Except.bind, pure, Except.pure])
      (by simpa only [Admits, S.factor_forget] using ha)
    rw [spatialDim_pair] at hT
    simp only [Elem.indexShape, basisValue, factorsOf] at hT ⊢
    exact ⟨T, m', h1, hT⟩
  · intro hk
    obtain ⟨comps, hsel, hlen, hin, _⟩ := hcurl_select (K := K) h hk
    have hsh : Shaped (.hcurl (.tensorProduct [a, b])) := by
      simp only [Shaped] at hs ⊢
      refine ⟨hs, comps, vs, _, hsel, h.shape, h.cell, by rw [hlen, spatialDim_pair], ?_, hin⟩
      intro h0; rw [h0] at hlen; simp at hlen
    obtain ⟨T, m', h1, hT⟩ := tabulation S _ hsh order p entity _ [ca.spatialDim + 1] n m hp hm
      (by simpa only [Elem.cell] using h.cell)
      (by simp [Elem.valueShape, h.cell, spatialDim_pair, bind, Except.bind, pure, Except.pure])
      (by simpa only [Admits, S.factor_forget] using ha)
    rw [spatialDim_pair] at hT
    simp only [Elem.indexShape, basisValue, factorsOf] at hT ⊢
    exact ⟨T, m', h1, hT⟩

/-- **C16**, accepted H(div) products: whenever `HDivElement(product)` is accepted, the transformation
gives exactly as many components as the spatial dimension. -/
theorem C16_hdiv_length (fs : List Elem) (c : Cell) (e : Elem) (hc : (Elem.tensorProduct fs).cell = .ok c)
    (h : mkHDiv (.tensorProduct fs) = .ok e) :
    e = .hdiv (.tensorProduct fs) ∧ ∃ comps, selectHdiv fs = .ok comps ∧ comps.length = c.spatialDim := by
  simp only [mkHDiv, bind, Except.bind, hc] at h
  split at h
  · cases h
  rename_i ks hks
  split at h
  · cases h
  split at h
  · cases h
  rename_i hnone hsum
  split at h
  · cases h
  rename_i comps hsel
  simp only [pure, Except.pure, Except.ok.injEq] at h
  refine ⟨h.symm, comps, hsel, ?_⟩
  unfold selectHdiv at hsel
  split at hsel
  · rename_i a b
    simp only [bind, Except.bind] at hsel
    split at hsel
    · cases hsel
    split at hsel
    · cases hsel
    split at hsel
    · cases hsel
    rename_i ka hka
    split at hsel
    · cases hsel
    rename_i kb hkb
    simp only [Elem.formdegreeL, hka, hkb, bind, Except.bind, pure, Except.pure, Except.ok.injEq] at hks
    subst hks
    split at hsel
    · cases hsel; simp at hsum; simp; omega
    · cases hsel; simp at hsum; simp; omega
    · cases hsel; simp at hsum; simp; omega
    · split at hsel
      · cases hsel; simp at hsum; simp; omega
      · cases hsel; simp at hsum; simp; omega
      · cases hsel
    · cases hsel
  · cases hsel

/-- The product `(dg0 x cg1) x cg1`: a scalar 1-form on a two-dimensional cell times a 0-form. -/
def scalarOneForm (last : Elem) : Elem := .tensorProduct [.tensorProduct [.leaf dg0, .leaf cg1], last]

/-- **C16** is false for `HCurlElement` on scalar 1-forms of two-dimensional cells:
`HCurlElement((DG0 x CG1) x CG1)` is accepted, its `value_shape` is `(3,)`, but the transformation
gives two components (and tabulating it fails). -/
theorem C16_hcurl_short_vector :
    mkHCurl (scalarOneForm (.leaf cg1)) = .ok (.hcurl (scalarOneForm (.leaf cg1))) ∧
    (Elem.hcurl (scalarOneForm (.leaf cg1))).valueShape = .ok [3] ∧
    (selectHcurl (scalarOneForm (.leaf cg1)).factorsOf).map List.length = .ok 2 :=
  ⟨rfl, rfl, rfl⟩

/-- **C16**: `HDivElement((DG0 x CG1) x DG0)` has form degrees adding up to `n - 1`, but the constructor
hits the branch `assert False, "Unexpected original mapping!"`. -/
theorem C16_hdiv_assertion :
    Elem.formdegreeL (scalarOneForm (.leaf dg0)).factorsOf = .ok [some 1, some 1] ∧
    (scalarOneForm (.leaf dg0)).cell.map Cell.spatialDim = .ok 3 ∧
    mkHDiv (scalarOneForm (.leaf dg0)) = .error .assertionError :=
  ⟨rfl, rfl, rfl⟩

/-! ## C17 -/

/-- **C17.** On a product of two intervals (form degrees (0, 1) or (1, 0)) both wrappers exist, and at
every basis function, derivative and point the H(div) vector is the H(curl) vector `(u, v)` rotated by 90
degrees anticlockwise, `(-v, u)`; the H(curl) vector itself is the scalar value in the direction of
the factor that is a 1-form, and zero in the other direction. -/
theorem C17_rotation (S : Sem I φ) (a b : Elem) (ca : Cell) (ka kb : Nat) (vs : List Nat)
    (h : FormPair a b ca ka kb vs) (h1 : ca.spatialDim = 1) (hk : ka + kb = 1)
    (hs : Shaped (.tensorProduct [a, b])) (order : Nat) (p : P) (entity : Option (Dim × Nat)) (n m : Nat)
    (hp : S.wf n p) (hm : n ≤ m)
    (ha : Admits S order (.tensorProduct [a, b]) p
      (entity.getD ((Cell.prod [ca, .simplex 1]).dimension, 0))) :
    Yields (evaluate I (.hdiv (.tensorProduct [a, b])) order p entity) m fun Td =>
      Yields (evaluate I (.hcurl (.tensorProduct [a, b])) order p entity) m fun Tc =>
        Yields (evaluate I (.tensorProduct [a, b]) order p entity) m fun Tw =>
          (∀ α, (α ∈ Td.keys ↔ α ∈ Tw.keys) ∧ (α ∈ Tc.keys ↔ α ∈ Tw.keys)) ∧
          ∀ α d c w, Td.get? α = some d → Tc.get? α = some c → Tw.get? α = some w →
            ∀ ρ i, S.valid p ρ → InRange i (Elem.tensorProduct [a, b]).indexShape →
              d.eval ρ (i ++ [0]) = - c.eval ρ (i ++ [1]) ∧
              d.eval ρ (i ++ [1]) = c.eval ρ (i ++ [0]) ∧
              c.eval ρ (i ++ [0]) = (if ka = 1 then w.eval ρ i else 0) ∧
              c.eval ρ (i ++ [1]) = (if kb = 1 then w.eval ρ i else 0) := by
  obtain ⟨Td, m1, e1, hTd⟩ := (wrapped_table h hs hp hm ha).1 (by omega)
  obtain ⟨Tc, m2, e2, hTc⟩ := (wrapped_table h hs hp hm ha).2 (by omega)
  obtain ⟨hmap, rfl⟩ : (Elem.tensorProduct [a, b]).mapping = some .affine ∧ vs = [] := by
    rcases h.kind with ⟨hm, hv, _⟩ | ⟨_, _, h2, _⟩
    · exact ⟨hm, hv⟩
    · omega
  obtain ⟨Tw, m3, e3, hTw⟩ := tabulation S _ hs order p entity _ [] n m hp hm h.cell h.shape ha
  rw [spatialDim_pair] at hTw
  refine ⟨Td, m1, e1, Tc, m2, e2, Tw, m3, e3, fun α => ⟨by rw [hTd.keys, hTw.keys], by rw [hTc.keys, hTw.keys]⟩, ?_⟩
  intro α d c w hd hc hw ρ i hV hi
  have hz0 : InRange [0] [ca.spatialDim + 1] := .cons (by omega) .nil
  have hz1 : InRange [1] [ca.spatialDim + 1] := .cons (by omega) .nil
  rw [hTd.value α d hd ρ i [0] hV hi hz0, hTd.value α d hd ρ i [1] hV hi hz1,
    hTc.value α c hc ρ i [0] hV hi hz0, hTc.value α c hc ρ i [1] hV hi hz1]
  have ew := hTw.value α w hw ρ i [] hV hi .nil
  rw [List.append_nil] at ew
  rw [ew]
  have : (ka = 0 ∧ kb = 1) ∨ (ka = 1 ∧ kb = 0) := by omega
  rcases this with ⟨rfl, rfl⟩ | ⟨rfl, rfl⟩ <;>
    simp [selectHdiv, selectHcurl, h.cellB, h.degA, h.degB, bind, Except.bind, h.cell, spatialDim_pair, h1,
      hmap, wrapValue, compValue]

/-- **C17**, three dimensions: products of a vector-valued 1-form element on a two-dimensional cell with
the interval. The wrapped vectors `w = (w0, w1)` are placed in the horizontal plane; where the Piola
pullback has to change between the covariant and the contravariant one they are rotated: the H(div)
vector of a covariant `w` is `w × e3 = (w1, -w0, 0)`, the H(curl) vector of a contravariant `w` is
`e3 × w = (-w1, w0, 0)`. -/
theorem C17_horizontal (S : Sem I φ) (a b : Elem) (ca : Cell) (kb : Nat) (vs : List Nat)
    (h : FormPair a b ca 1 kb vs) (h2 : ca.spatialDim = 2)
    (hs : Shaped (.tensorProduct [a, b])) (order : Nat) (p : P) (entity : Option (Dim × Nat)) (n m : Nat)
    (hp : S.wf n p) (hm : n ≤ m)
    (ha : Admits S order (.tensorProduct [a, b]) p
      (entity.getD ((Cell.prod [ca, .simplex 1]).dimension, 0))) :
    Yields (evaluate I (.tensorProduct [a, b]) order p entity) m fun Tw =>
      (kb = 1 → Yields (evaluate I (.hdiv (.tensorProduct [a, b])) order p entity) m fun Td =>
        ∀ α d w, Td.get? α = some d → Tw.get? α = some w →
          ∀ ρ i, S.valid p ρ → InRange i (Elem.tensorProduct [a, b]).indexShape →
            let w0 := w.eval ρ (i ++ [0])
            let w1 := w.eval ρ (i ++ [1])
            ((Elem.tensorProduct [a, b]).mapping = some .contravariantPiola →
              d.eval ρ (i ++ [0]) = w0 ∧ d.eval ρ (i ++ [1]) = w1 ∧ d.eval ρ (i ++ [2]) = 0) ∧
            ((Elem.tensorProduct [a, b]).mapping = some .covariantPiola →
              d.eval ρ (i ++ [0]) = w1 ∧ d.eval ρ (i ++ [1]) = - w0 ∧ d.eval ρ (i ++ [2]) = 0)) ∧
      (kb = 0 → Yields (evaluate I (.hcurl (.tensorProduct [a, b])) order p entity) m fun Tc =>
        ∀ α c w, Tc.get? α = some c → Tw.get? α = some w →
          ∀ ρ i, S.valid p ρ → InRange i (Elem.tensorProduct [a, b]).indexShape →
            let w0 := w.eval ρ (i ++ [0])
            let w1 := w.eval ρ (i ++ [1])
            ((Elem.tensorProduct [a, b]).mapping = some .covariantPiola →
              c.eval ρ (i ++ [0]) = w0 ∧ c.eval ρ (i ++ [1]) = w1 ∧ c.eval ρ (i ++ [2]) = 0) ∧
            ((Elem.tensorProduct [a, b]).mapping = some .contravariantPiola →
              c.eval ρ (i ++ [0]) = - w1 ∧ c.eval ρ (i ++ [1]) = w0 ∧ c.eval ρ (i ++ [2]) = 0)) := by
  obtain ⟨hmap, rfl⟩ : ((Elem.tensorProduct [a, b]).mapping = some .contravariantPiola ∨
      (Elem.tensorProduct [a, b]).mapping = some .covariantPiola) ∧ vs = [2] := by
    rcases h.kind with ⟨_, _, h0⟩ | ⟨hm, hv, _⟩
    · exact absurd rfl (h0 h2)
    · exact ⟨hm, hv⟩
  obtain ⟨Tw, m3, e3, hTw⟩ := tabulation S _ hs order p entity _ [2] n m hp hm h.cell h.shape ha
  rw [spatialDim_pair] at hTw
  have hz0 : InRange [0] [ca.spatialDim + 1] := .cons (by omega) .nil
  have hz1 : InRange [1] [ca.spatialDim + 1] := .cons (by omega) .nil
  have hz2 : InRange [2] [ca.spatialDim + 1] := .cons (by omega) .nil
  have hy0 : InRange [0] [2] := .cons (by omega) .nil
  have hy1 : InRange [1] [2] := .cons (by omega) .nil
  refine ⟨Tw, m3, e3, fun hk => ?_, fun hk => ?_⟩ <;> subst hk
  · obtain ⟨Td, m1, e1, hTd⟩ := (wrapped_table h hs hp hm ha).1 (by omega)
    refine ⟨Td, m1, e1, fun α d w hd hw ρ i hV hi => ?_⟩
    rw [hTd.value α d hd ρ i [0] hV hi hz0, hTd.value α d hd ρ i [1] hV hi hz1,
      hTd.value α d hd ρ i [2] hV hi hz2, hTw.value α w hw ρ i [0] hV hi hy0, hTw.value α w hw ρ i [1] hV hi hy1]
    constructor <;> intro hmap <;>
      simp [selectHdiv, h.cellB, h.degA, h.degB, bind, Except.bind, hmap, wrapValue, compValue]
  · obtain ⟨Tc, m1, e1, hTc⟩ := (wrapped_table h hs hp hm ha).2 (by omega)
    refine ⟨Tc, m1, e1, fun α d w hd hw ρ i hV hi => ?_⟩
    rw [hTc.value α d hd ρ i [0] hV hi hz0, hTc.value α d hd ρ i [1] hV hi hz1,
      hTc.value α d hd ρ i [2] hV hi hz2, hTw.value α w hw ρ i [0] hV hi hy0, hTw.value α w hw ρ i [1] hV hi hy1]
    constructor <;> intro hmap <;>
      simp [selectHcurl, h.cell, h.cellB, h.degA, h.degB, bind, Except.bind, hmap, wrapValue, compValue]

/-- **C17**, three dimensions, vertical vectors: the H(div) vector of a 2-form times a 0-form and the
H(curl) vector of a 0-form times a 1-form have the scalar value as last component, and no other. -/
theorem C17_vertical (S : Sem I φ) (a b : Elem) (ca : Cell) (ka kb : Nat) (vs : List Nat)
    (h : FormPair a b ca ka kb vs) (h2 : ca.spatialDim = 2)
    (hs : Shaped (.tensorProduct [a, b])) (order : Nat) (p : P) (entity : Option (Dim × Nat)) (n m : Nat)
    (hp : S.wf n p) (hm : n ≤ m)
    (ha : Admits S order (.tensorProduct [a, b]) p
      (entity.getD ((Cell.prod [ca, .simplex 1]).dimension, 0))) :
    Yields (evaluate I (.tensorProduct [a, b]) order p entity) m fun Tw =>
      (ka = 2 ∧ kb = 0 → Yields (evaluate I (.hdiv (.tensorProduct [a, b])) order p entity) m fun Td =>
        ∀ α d w, Td.get? α = some d → Tw.get? α = some w →
          ∀ ρ i, S.valid p ρ → InRange i (Elem.tensorProduct [a, b]).indexShape →
            d.eval ρ (i ++ [0]) = 0 ∧ d.eval ρ (i ++ [1]) = 0 ∧ d.eval ρ (i ++ [2]) = w.eval ρ i) ∧
      (ka = 0 ∧ kb = 1 → Yields (evaluate I (.hcurl (.tensorProduct [a, b])) order p entity) m fun Tc =>
        ∀ α c w, Tc.get? α = some c → Tw.get? α = some w →
          ∀ ρ i, S.valid p ρ → InRange i (Elem.tensorProduct [a, b]).indexShape →
            c.eval ρ (i ++ [0]) = 0 ∧ c.eval ρ (i ++ [1]) = 0 ∧ c.eval ρ (i ++ [2]) = w.eval ρ i) := by
  obtain ⟨Tw, m3, e3, hTw⟩ := tabulation S _ hs order p entity _ vs n m hp hm h.cell h.shape ha
  rw [spatialDim_pair] at hTw
  have hz0 : InRange [0] [ca.spatialDim + 1] := .cons (by omega) .nil
  have hz1 : InRange [1] [ca.spatialDim + 1] := .cons (by omega) .nil
  have hz2 : InRange [2] [ca.spatialDim + 1] := .cons (by omega) .nil
  have hvs : ka ≠ 1 → (Elem.tensorProduct [a, b]).mapping = some .affine ∧ vs = [] := by
    intro hk
    rcases h.kind with ⟨hm, hv, _⟩ | ⟨_, _, _, h0⟩
    · exact ⟨hm, hv⟩
    · exact absurd h0 hk
  refine ⟨Tw, m3, e3, ?_, ?_⟩ <;> rintro ⟨rfl, rfl⟩
  · obtain ⟨hmap, rfl⟩ := hvs (by omega)
    obtain ⟨Td, m1, e1, hTd⟩ := (wrapped_table h hs hp hm ha).1 (by omega)
    refine ⟨Td, m1, e1, fun α d w hd hw ρ i hV hi => ?_⟩
    have ew := hTw.value α w hw ρ i [] hV hi .nil
    rw [List.append_nil] at ew
    rw [hTd.value α d hd ρ i [0] hV hi hz0, hTd.value α d hd ρ i [1] hV hi hz1,
      hTd.value α d hd ρ i [2] hV hi hz2, ew]
    simp [selectHdiv, h.cellB, h.degA, h.degB, bind, Except.bind, wrapValue, compValue]
  · obtain ⟨hmap, rfl⟩ := hvs (by omega)
    obtain ⟨Tc, m1, e1, hTc⟩ := (wrapped_table h hs hp hm ha).2 (by omega)
    refine ⟨Tc, m1, e1, fun α d w hd hw ρ i hV hi => ?_⟩
    have ew := hTw.value α w hw ρ i [] hV hi .nil
    rw [List.append_nil] at ew
    rw [hTc.value α d hd ρ i [0] hV hi hz0, hTc.value α d hd ρ i [1] hV hi hz1,
      hTc.value α d hd ρ i [2] hV hi hz2, ew]
    simp [selectHcurl, h.cell, h.cellB, h.degA, h.degB, bind, Except.bind, hmap, wrapValue, compValue,
      spatialDim_pair, h2, List.replicate]

/-! ### The hypotheses are met -/

/-- DG0 on the interval is a 1-form. -/
example : FormPair (.leaf cg1) (.leaf dg0) (.simplex 1) 0 1 [] :=
  ⟨rfl, rfl, .inl rfl, rfl, rfl, by decide, by decide, rfl, .inl ⟨rfl, rfl, by decide⟩⟩
example : FormPair (.leaf dg0) (.leaf cg1) (.simplex 1) 1 0 [] :=
  ⟨rfl, rfl, .inl rfl, rfl, rfl, by decide, by decide, rfl, .inl ⟨rfl, rfl, by decide⟩⟩

/-- Lowest-order Raviart-Thomas on the triangle. -/
def rt1 : Leaf where
  id := 3
  kind := .fiat
  cell := .simplex 2
  formdegree := some 1
  valueShape := [2]
  mapping := some .contravariantPiola
  degree := 1
  fns := [0, 1, 2]
  dofs := [(.int 0, [(0, []), (1, []), (2, [])]), (.int 1, [(0, [0]), (1, [1]), (2, [2])]), (.int 2, [(0, [])])]

/-- RT1 x DG0 on the prism can be made H(div), RT1 x CG1 can be made H(curl). -/
example : FormPair (.leaf rt1) (.leaf dg0) (.simplex 2) 1 1 [2] :=
  ⟨rfl, rfl, .inr rfl, rfl, rfl, by decide, by decide, rfl, .inr ⟨.inl rfl, rfl, rfl, rfl⟩⟩
example : FormPair (.leaf rt1) (.leaf cg1) (.simplex 2) 1 0 [2] :=
  ⟨rfl, rfl, .inr rfl, rfl, rfl, by decide, by decide, rfl, .inr ⟨.inl rfl, rfl, rfl, rfl⟩⟩

end FInAT.Props
