import Verif.Lemmas.Poly
import Verif.Spec.Tab

/-!
# Tabulation: C12-C18, C22, C30, C40, C58
-/

namespace FInAT.Props

open FInAT Spec Elem

variable {K : Type} [CommRing K] {P : Type} {I : Interp K P} {φ : LeafVals K}

theorem isTable_of {V : Env → Prop} {T : Tab K} {sd order : Nat} {is vs : List Nat}
    {F : List Nat → Env → List Nat → K} (h : TabDen V T sd order (is ++ vs) F)
    {G : List Nat → Env → List Nat → List Nat → K}
    (hG : ∀ α ρ i z, V ρ → α.length = sd → InRange i is → InRange z vs → F α ρ (i ++ z) = G α ρ i z) :
    IsTable V T sd order is vs G := by
  refine ⟨h.nodup, h.keys, fun α t ht => (h.den α t ht).shape, fun α t ht ρ i z hV hi hz => ?_⟩
  have hk : α ∈ T.keys := by rw [← Dict.get?_isSome_iff, ht]; rfl
  rw [(h.den α t ht).val ρ _ hV (InB.append hi hz)]
  exact hG α ρ i z hV ((h.keys α).1 hk).1 hi hz

/-- Tabulation of any composite element, in terms of its basis functions. -/
theorem tabulation (S : Sem I φ) (e : Elem) (hs : Shaped e) (order : Nat) (p : P)
    (entity : Option (Dim × Nat)) (c : Cell) (vs : List Nat) (n m : Nat) (hp : S.wf n p) (hm : n ≤ m)
    (hc : e.cell = .ok c) (hv : e.valueShape = .ok vs)
    (ha : Admits S order e p (entity.getD (c.dimension, 0))) :
    Yields (evaluate I e order p entity) m fun T =>
      IsTable (S.valid p) T c.spatialDim order e.indexShape vs fun α ρ i z =>
        basisValue φ e α (entity.getD (c.dimension, 0)) (S.at_ p ρ) i z := by
  obtain ⟨T, m', h1, _, h2⟩ := evaluate_ok S e hs order p entity c vs n m hp hm hc hv ha
  refine ⟨T, m', h1, isTable_of h2 ?_⟩
  intro α ρ i z _ _ hi _
  have hl : i.length = e.indexShape.length := InB.length hi
  simp only [elemF]
  rw [← hl, List.take_left, List.drop_left]

theorem IsTable.get {V : Env → Prop} {T : Tab K} {sd order : Nat} {is vs : List Nat}
    {G : List Nat → Env → List Nat → List Nat → K} (h : IsTable V T sd order is vs G) {α : List Nat}
    (hα : α.length = sd) (ho : α.sum ≤ order) : ∃ t, T.get? α = some t := by
  have := (h.keys α).2 ⟨hα, ho⟩
  rw [← Dict.get?_isSome_iff] at this
  exact Option.isSome_iff_exists.1 this

/-! ## C12 -/

theorem admitsL_mem (S : Sem I φ) {order : Nat} {p : P} {ent : Dim × Nat} :
    ∀ {es : List Elem}, AdmitsL S order es p ent → ∀ e ∈ es, Admits S order e p ent
  | [], _, e, he => by simp at he
  | x :: es, h, e, he => by
    simp only [AdmitsL] at h
    rcases List.mem_cons.1 he with rfl | he
    · exact h.1
    · exact admitsL_mem S h.2 e he

theorem cellL_mem : ∀ {es : List Elem} {cs : List Cell}, Elem.cellL es = .ok cs →
    ∀ e ∈ es, ∃ c ∈ cs, e.cell = .ok c
  | [], _, _, e, he => by simp at he
  | x :: es, cs, h, e, he => by
    obtain ⟨c, cs', h1, h2, rfl⟩ := cellL_cons h
    rcases List.mem_cons.1 he with rfl | he
    · exact ⟨c, List.mem_cons_self, h1⟩
    · obtain ⟨c', hc', h⟩ := cellL_mem h2 e he
      exact ⟨c', List.mem_cons_of_mem _ hc', h⟩

theorem enriched_parts {es : List Elem} {c : Cell} {vs : List Nat} (hc : (Elem.enriched es).cell = .ok c)
    (hv : (Elem.enriched es).valueShape = .ok vs) : ∀ e ∈ es, e.cell = .ok c ∧ e.valueShape = .ok vs := by
  intro e he
  obtain ⟨cs, hcs, hall⟩ := cell_enriched hc
  obtain ⟨c', hc', h⟩ := cellL_mem hcs e he
  refine ⟨hall c' hc' ▸ h, ?_⟩
  simp only [Elem.valueShape] at hv
  rw [bind_ok] at hv
  obtain ⟨ss, hss, hu⟩ := hv
  obtain ⟨s, hs, h⟩ := valueShapeL_mem hss e he
  exact (uniqueOf_mem hu).2 s hs ▸ h

theorem sumValue_at {α : List Nat} {ent : Dim × Nat} {x : List K} {z : List Nat} :
    ∀ {es : List Elem} {k : Nat} {e : Elem} {j : Nat}, es[k]? = some e → j < e.spaceDim →
      sumValue φ es α ent x (((es.take k).map Elem.spaceDim).sum + j) z =
        basisValue φ e α ent x (unravel e.indexShape j) z
  | [], k, e, j, h, _ => by simp at h
  | f :: es, 0, e, j, h, hj => by
    simp only [List.getElem?_cons_zero, Option.some.injEq] at h
    subst h
    simp [sumValue, hj]
  | f :: es, k + 1, e, j, h, hj => by
    simp only [List.getElem?_cons_succ] at h
    simp only [sumValue, List.take_succ_cons, List.map_cons, List.sum_cons]
    rw [if_neg (by omega), show f.spaceDim + ((es.take k).map Elem.spaceDim).sum + j - f.spaceDim =
      ((es.take k).map Elem.spaceDim).sum + j by omega]
    exact sumValue_at h hj

theorem spaceDimL_eq (es : List Elem) : Elem.spaceDimL es = es.map Elem.spaceDim := by
  induction es with
  | nil => rfl
  | cons e es ih => simp [Elem.spaceDimL, ih]

/-- **C12.** Tabulating an enriched element succeeds together with tabulating its sub-elements (at the
same points, entity and order), and row `offset_k + flat(j)` of its table is row `j` of the table of
sub-element `k`, for every derivative, value component and point. `offset_k` is the total
`space_dimension()` of the preceding sub-elements, `flat` the row-major position in `index_shape`. -/
theorem C12_enriched_tabulation (S : Sem I φ) (es : List Elem) (hs : ∀ e ∈ es, Shaped e) (order : Nat)
    (p : P) (entity : Option (Dim × Nat)) (c : Cell) (vs : List Nat) (n m : Nat) (hp : S.wf n p)
    (hm : n ≤ m) (hc : (Elem.enriched es).cell = .ok c) (hv : (Elem.enriched es).valueShape = .ok vs)
    (ha : Admits S order (.enriched es) p (entity.getD (c.dimension, 0))) :
    Yields (evaluate I (.enriched es) order p entity) m fun T =>
      ∀ k e, es[k]? = some e → Yields (evaluate I e order p entity) m fun Te =>
        (∀ α, α ∈ T.keys ↔ α ∈ Te.keys) ∧
        ∀ α t te, T.get? α = some t → Te.get? α = some te →
          ∀ ρ j z, S.valid p ρ → InRange j e.indexShape → InRange z vs →
            t.eval ρ ((((es.take k).map Elem.spaceDim).sum + ravel e.indexShape j) :: z) =
              te.eval ρ (j ++ z) := by
  obtain ⟨T, m', h1, hT⟩ := tabulation S (.enriched es) (by simpa only [Shaped] using hs) order p entity c vs n m
    hp hm hc hv ha
  refine ⟨T, m', h1, fun k e hk => ?_⟩
  have he := List.mem_of_getElem? hk
  obtain ⟨hce, hve⟩ := enriched_parts hc hv e he
  simp only [Admits] at ha
  obtain ⟨Te, m2, h2, hTe⟩ := tabulation S e (hs e he) order p entity c vs n m hp hm hce hve
    (admitsL_mem S ha e he)
  refine ⟨Te, m2, h2, fun α => by rw [hT.keys, hTe.keys], ?_⟩
  intro α t te ht hte ρ j z hV hj hz
  have hr : ravel e.indexShape j < e.spaceDim := by
    rw [C02_space_dimension]; exact ravel_lt hj
  have hin : ((es.take k).map Elem.spaceDim).sum + ravel e.indexShape j < (Elem.spaceDimL es).sum := by
    rw [spaceDimL_eq]
    have hlt := (List.getElem?_eq_some_iff.1 hk).1
    have hsp : es = es.take k ++ e :: es.drop (k + 1) := by
      conv_lhs => rw [← List.take_append_drop k es]
      rw [List.drop_eq_getElem_cons hlt, (List.getElem?_eq_some_iff.1 hk).2]
    conv_rhs => rw [hsp]
    simp only [List.map_append, List.map_cons, List.sum_append, List.sum_cons]
    omega
  have e1 := hT.value α t ht ρ [_] z hV (.cons hin .nil) hz
  rw [List.singleton_append] at e1
  rw [e1, hTe.value α te hte ρ j z hV hj hz]
  simp only [basisValue, List.headD_cons]
  rw [sumValue_at hk hr, unravel_ravel hj]

/-- **C12**, completeness: every row of the enriched table is of that form, for exactly one
sub-element and one of its basis functions. -/
theorem C12_enriched_rows (es : List Elem) (r : Nat) (hr : r < (Elem.enriched es).spaceDim) :
    ∃! kj : Nat × List Nat, ∃ e, es[kj.1]? = some e ∧ InRange kj.2 e.indexShape ∧
      r = ((es.take kj.1).map Elem.spaceDim).sum + ravel e.indexShape kj.2 := by
  simp only [Elem.spaceDim, spaceDimL_eq] at hr
  induction es generalizing r with
  | nil => simp at hr
  | cons e es ih =>
    have hsd : e.spaceDim = e.indexShape.prod := C02_space_dimension e
    simp only [List.map_cons, List.sum_cons] at hr
    by_cases h : r < e.spaceDim
    · refine ⟨(0, unravel e.indexShape r), ⟨e, rfl, unravel_bounds (hsd ▸ h), ?_⟩, ?_⟩
      · simp [ravel_unravel (hsd ▸ h)]
      · rintro ⟨k, j⟩ ⟨f, hf, hj, heq⟩
        simp only at hf hj heq
        cases k with
        | zero =>
          simp only [List.getElem?_cons_zero, Option.some.injEq] at hf
          subst hf
          simp only [List.take_zero, List.map_nil, List.sum_nil, Nat.zero_add] at heq
          rw [heq, unravel_ravel hj]
        | succ k =>
          simp only [List.take_succ_cons, List.map_cons, List.sum_cons] at heq
          omega
    · obtain ⟨⟨k, j⟩, ⟨f, hf, hj, heq⟩, huniq⟩ := ih (r - e.spaceDim) (by omega)
      refine ⟨(k + 1, j), ⟨f, by simpa using hf, hj, ?_⟩, ?_⟩
      · simp only [List.take_succ_cons, List.map_cons, List.sum_cons]
        simp only at heq
        omega
      · rintro ⟨k', j'⟩ ⟨f', hf', hj', heq'⟩
        simp only at hf' hj' heq'
        cases k' with
        | zero =>
          simp only [List.getElem?_cons_zero, Option.some.injEq] at hf'
          subst hf'
          simp only [List.take_zero, List.map_nil, List.sum_nil, Nat.zero_add] at heq'
          have := ravel_lt hj'
          omega
        | succ k' =>
          simp only [List.getElem?_cons_succ] at hf'
          simp only [List.take_succ_cons, List.map_cons, List.sum_cons] at heq'
          have := huniq (k', j') ⟨f', hf', hj', by simp only; omega⟩
          simp only [Prod.mk.injEq] at this
          rw [this.1, this.2]

/-! ## C13 -/

/-- **C13**, values: a sub-element of a mixed element has, for every basis function, derivative and
point, value component `offset + flat(z)` equal to component `z` of the element, and all components
outside the block `offset, ..., offset + value_size - 1` are zero. -/
theorem C13_mixed_values (S : Sem I φ) (e : Elem) (size offset : Nat)
    (hs : Shaped (.mixedSub e size offset)) (order : Nat) (p : P) (entity : Option (Dim × Nat)) (c : Cell)
    (vs : List Nat) (n m : Nat) (hp : S.wf n p) (hm : n ≤ m) (hc : e.cell = .ok c)
    (hv : e.valueShape = .ok vs) (ha : Admits S order e p (entity.getD (c.dimension, 0))) :
    Yields (evaluate I (.mixedSub e size offset) order p entity) m fun T =>
      Yields (evaluate I e order p entity) m fun Te =>
        (∀ α, α ∈ T.keys ↔ α ∈ Te.keys) ∧
        ∀ α t te, T.get? α = some t → Te.get? α = some te → ∀ ρ i, S.valid p ρ →
          InRange i e.indexShape →
          (∀ z, InRange z vs → t.eval ρ (i ++ [offset + ravel vs z]) = te.eval ρ (i ++ z)) ∧
          ∀ r < size, (r < offset ∨ offset + vs.prod ≤ r) → t.eval ρ (i ++ [r]) = 0 := by
  have hs' := hs
  simp only [Shaped] at hs'
  obtain ⟨hse, hne, vs', hv', hle⟩ := hs'
  rw [hv] at hv'
  cases hv'
  obtain ⟨T, m', h1, hT⟩ := tabulation S (.mixedSub e size offset) hs order p entity c [size] n m
    hp hm (by simpa only [Elem.cell] using hc) rfl (by simpa only [Admits] using ha)
  obtain ⟨Te, m2, h2, hTe⟩ := tabulation S e hse order p entity c vs n m hp hm hc hv ha
  refine ⟨T, m', h1, Te, m2, h2, fun α => by rw [hT.keys, hTe.keys], ?_⟩
  intro α t te ht hte ρ i hV hi
  have hi' : InRange i (Elem.mixedSub e size offset).indexShape := by
    simpa only [Elem.indexShape] using hi
  constructor
  · intro z hz
    have hlt := ravel_lt hz
    rw [hT.value α t ht ρ i _ hV hi' (.cons (by omega) .nil), hTe.value α te hte ρ i z hV hi hz]
    simp only [basisValue, List.headD_cons, vshape_eq hv]
    rw [if_pos (by omega), Nat.add_sub_cancel_left, unravel_ravel hz]
  · intro r hr hout
    rw [hT.value α t ht ρ i _ hV hi' (.cons hr .nil)]
    simp only [basisValue, List.headD_cons, vshape_eq hv]
    rw [if_neg (by omega)]

theorem cumsum0_go (acc : Nat) (l : List Nat) : cumsum0.go acc l =
    (List.range (l.length + 1)).map fun k => acc + (l.take k).sum := by
  induction l generalizing acc with
  | nil => simp [cumsum0.go]
  | cons a l ih =>
    rw [cumsum0.go, ih, List.length_cons, List.range_succ_eq_map (n := l.length + 1), List.map_cons,
      List.map_map]
    congr 1
    · apply List.map_congr_left
      intro k _
      simp [Nat.add_assoc]

/-- **C13**, construction: `MixedElement(elements)` never fails an assertion: the sub-element number
`k` is placed at the total value size of the preceding elements in a vector of the total value size
(the result is the enriched element of these blocks). The blocks are consecutive, so they are disjoint
and cover all components. -/
theorem C13_mixed_construction (es : List Elem) (ss : List (List Nat)) (hv : valueShapeL es = .ok ss) :
    mkMixed es = .ok (mkEnriched (((List.range es.length).zip es).map fun p =>
      .mixedSub p.2 (ss.map List.prod).sum ((ss.map List.prod).take p.1).sum)) := by
  have hlen : ss.length = es.length := by
    clear * - hv
    induction es generalizing ss with
    | nil => simp only [valueShapeL, Except.ok.injEq] at hv; subst hv; rfl
    | cons e es ih =>
      obtain ⟨s, ss', _, h2, rfl⟩ := valueShapeL_cons hv
      simp [ih _ h2]
  unfold mkMixed
  rw [hv]
  simp only [bind, Except.bind]
  have hoff : cumsum0 (ss.map List.prod) =
      (List.range (es.length + 1)).map fun k => ((ss.map List.prod).take k).sum := by
    rw [cumsum0, cumsum0_go]
    simp [hlen]
  have htot : (cumsum0 (ss.map List.prod)).getLast?.getD 0 = (ss.map List.prod).sum := by
    rw [hoff, List.range_succ]
    simp only [List.map_append, List.map_cons, List.map_nil, List.getLast?_append, List.getLast?_singleton,
      Option.some_or, Option.getD_some]
    rw [List.take_of_length_le (by simp [hlen])]
  have hdrop : (cumsum0 (ss.map List.prod)).dropLast =
      (List.range es.length).map fun k => ((ss.map List.prod).take k).sum := by
    rw [hoff, List.range_succ]
    simp
  rw [htot, hdrop]
  have key : (((List.range es.length).map fun k => ((ss.map List.prod).take k).sum).zip es).mapM
      (fun p => mkMixedSub p.2 (ss.map List.prod).sum p.1) =
      .ok (((List.range es.length).zip es).map fun p =>
        .mixedSub p.2 (ss.map List.prod).sum ((ss.map List.prod).take p.1).sum) := by
    have hzip : (((List.range es.length).map fun k => ((ss.map List.prod).take k).sum).zip es) =
        ((List.range es.length).zip es).map fun p => (((ss.map List.prod).take p.1).sum, p.2) := by
      rw [List.zip_map_left]; rfl
    rw [hzip]
    have hok : ∀ p ∈ (List.range es.length).zip es,
        mkMixedSub p.2 (ss.map List.prod).sum ((ss.map List.prod).take p.1).sum =
          .ok (.mixedSub p.2 (ss.map List.prod).sum ((ss.map List.prod).take p.1).sum) := by
      intro p hp
      obtain ⟨k, hk, hpk⟩ := List.mem_iff_getElem.1 hp
      have hkl : k < es.length := by simpa using hk
      have hp1 : p.1 = k := by rw [← hpk]; simp
      have hp2 : p.2 = es[k] := by rw [← hpk]; simp
      have hks : k < ss.length := by rw [hlen]; exact hkl
      have hvk : es[k].valueShape = .ok ss[k] := by
        clear * - hv hlen hkl
        induction es generalizing ss k with
        | nil => simp at hkl
        | cons e es ih =>
          obtain ⟨s, ss', h1, h2, rfl⟩ := valueShapeL_cons hv
          cases k with
          | zero => simpa using h1
          | succ k => simpa using ih _ h2 (by simpa using hlen) k (by simpa using hkl) (by simpa using hks)
      have hsum : ((ss.map List.prod).take k).sum + ss[k].prod ≤ (ss.map List.prod).sum := by
        have hsp : (ss.map List.prod).sum = ((ss.map List.prod).take k).sum +
            ((ss.map List.prod).drop k).sum := by
          rw [← List.sum_append, List.take_append_drop]
        rw [hsp, List.drop_eq_getElem_cons (by simp; omega)]
        simp
      unfold mkMixedSub
      rw [hp1, hp2, if_pos (by omega), hvk]
      simp only [bind, Except.bind, pure, Except.pure]
      rw [if_pos hsum]
    generalize (List.range es.length).zip es = L at hok
    clear * - hok
    induction L with
    | nil => rfl
    | cons p L ih =>
      rw [List.map_cons, List.mapM_cons, hok p List.mem_cons_self,
        ih fun q hq => hok q (List.mem_cons_of_mem _ hq)]
      rfl
  rw [key]
  rfl

end FInAT.Props
