import Verif.Lemmas.Restrict2
import Verif.Props.Dofs

/-!
# Restriction to entities (C23–C26)

`attached φ e` lists the basis functions of `e`, each with the entity its dof is attached to; `keeps` says which
entity dimensions a domain keeps (`Verif/Spec/Restrict.lean`).
-/

namespace FInAT.Props

open FInAT FInAT.Spec FInAT.Elem

variable {K : Type} [CommRing K]

/-! ### C23 -/

/-- **C23.** `restrict(e, domain, take_closure)` returns an element whose basis functions, with the entities they
are attached to, are exactly the basis functions of `e` attached to entities of the dimension the domain names (or,
with closure, of that dimension or below), each exactly once; or `null_element` when there are none. -/
theorem C23_restriction_keeps_partial (φ : LeafVals K) (hφ : Labelled φ) (e : Elem) (he : Restrictable e) (dom : Domain)
    (closure : Bool) (c : Cell) (vs : List Nat) (hc : e.cell = .ok c) (hv : e.valueShape = .ok vs)
    (hd : DomainOK dom c.spatialDim) :
    (∃ e', restrict e dom closure = .ok (.elem e') ∧ e'.cell = .ok c ∧
      (attached φ e').Perm ((attached φ e).filter fun y => keeps dom closure c.spatialDim y.1.1.total)) ∨
    (restrict e dom closure = .ok .null ∧
      (attached φ e).filter (fun y => keeps dom closure c.spatialDim y.1.1.total) = []) := by
  obtain ⟨r, hr, hok⟩ := restrict_ok hφ e he c vs dom closure hc hv hd
  match r, hok with
  | .null, hok => exact Or.inr ⟨hr, hok⟩
  | .elem e', hok =>
    exact Or.inl ⟨e', hr, (parts_attrs hok.2.2.1 hok.2.2.2.1).1, hok.2.2.2.2.2⟩

/-- **C23.** The public constructor `RestrictedElement(e, domain)`: the closure of the named entities for all
domains but the interior, which is itself only; `ValueError` exactly when nothing is left. -/
theorem C23_restricted_element_partial (φ : LeafVals K) (hφ : Labelled φ) (e : Elem) (he : Restrictable e) (dom : Domain)
    (c : Cell) (vs : List Nat) (m : Nat) (hc : e.cell = .ok c) (hv : e.valueShape = .ok vs)
    (hd : DomainOK dom c.spatialDim) (hm : domainDim dom c.spatialDim = some m) :
    (∃ e', restrictedElement e dom = .ok (.elem e') ∧ (attached φ e').Perm ((attached φ e).filter fun y =>
      if dom = .interior then decide (y.1.1.total = c.spatialDim) else decide (y.1.1.total ≤ m))) ∨
    (restrictedElement e dom = .error .valueError ∧ (attached φ e).filter (fun y =>
      if dom = .interior then decide (y.1.1.total = c.spatialDim) else decide (y.1.1.total ≤ m)) = []) := by
  have hfun : ∀ t, keeps dom true c.spatialDim t =
      if dom = .interior then decide (t = c.spatialDim) else decide (t ≤ m) := by
    intro t
    simp only [keeps, hm]
    by_cases h : dom = .interior
    · subst h
      simp only [domainDim, Option.some.injEq] at hm
      subst hm
      simp
    · simp [h]
  have h := C23_restriction_keeps_partial φ hφ e he dom true c vs hc hv hd
  simp only [hfun] at h
  rcases h with ⟨e', h1, _, h2⟩ | ⟨h1, h2⟩
  · exact Or.inl ⟨e', by simp [restrictedElement, h1, bind, Except.bind, pure, Except.pure], h2⟩
  · exact Or.inr ⟨by simp [restrictedElement, h1, bind, Except.bind], h2⟩

/-- **C23.** On a product cell the rule above is the rule of codimensions: an entity with factor entities of
codimensions `δ` is kept without closure iff they sum to the codimension of the domain, and with closure iff they
sum to at least that. -/
theorem C23_codimensions (cs : List Cell) (ds : List Dim) (dom : Domain) (closure : Bool) (m : Nat)
    (hm : domainDim dom (Cell.prod cs).spatialDim = some m) (hmn : m ≤ (Cell.prod cs).spatialDim)
    (hds : List.Forall₂ (fun (d : Dim) (c : Cell) => d.total ≤ c.spatialDim) ds cs) :
    keeps dom closure (Cell.prod cs).spatialDim (Dim.tup ds).total = true ↔
      if closure = true ∧ dom ≠ .interior
      then (Cell.prod cs).spatialDim - m ≤ (List.zipWith (fun (d : Dim) (c : Cell) => c.spatialDim - d.total) ds cs).sum
      else (List.zipWith (fun (d : Dim) (c : Cell) => c.spatialDim - d.total) ds cs).sum =
        (Cell.prod cs).spatialDim - m := by
  have hsum : (List.zipWith (fun (d : Dim) (c : Cell) => c.spatialDim - d.total) ds cs).sum + Dim.totalL ds =
      Cell.spatialDimL cs := by
    clear * - hds
    induction hds with
    | nil => rfl
    | cons h _ ih => simp only [List.zipWith_cons_cons, List.sum_cons, Dim.totalL, Cell.spatialDimL]; omega
  have ht : (Dim.tup ds).total = Dim.totalL ds := rfl
  have hs : (Cell.prod cs).spatialDim = Cell.spatialDimL cs := rfl
  simp only [keeps, hm]
  split
  · rw [decide_eq_true_eq]; omega
  · rw [decide_eq_true_eq]; omega

/-- **C23, mixed elements.** Restricting a mixed element (of at least two elements) restricts its parts, drops the
empty ones and makes a mixed element of the others. -/
theorem C23_mixed (es : List Elem) (m : Elem) (dom : Domain) (closure : Bool) (rs : List RRes) (fs : List Elem)
    (hlen : 2 ≤ es.length) (hm : mkMixed es = .ok m) (hr : restrictL es dom closure = .ok rs)
    (hn : nonNull rs = some fs) :
    restrict m dom closure = if fs = [] then .ok .null else (mkMixed fs).map .elem := by
  simp only [mkMixed, bind_ok, pure, Except.pure, Except.ok.injEq] at hm
  obtain ⟨ss, hss, subs, hsubs, rfl⟩ := hm
  set offs := (cumsum0 (ss.map List.prod)).dropLast with hoffs
  have hlo : es.length = offs.length := by
    have h1 : ss.length = es.length := by
      clear * - hss
      induction es generalizing ss with
      | nil => cases hss; rfl
      | cons e es ih =>
        obtain ⟨s, ss', _, h2, rfl⟩ := valueShapeL_cons hss
        simp [ih ss' h2]
    have h2 : ∀ l : List Nat, (cumsum0 l).length = l.length + 1 := by
      intro l
      unfold cumsum0
      generalize 0 = a
      induction l generalizing a with
      | nil => rfl
      | cons b l ih => simp only [cumsum0.go, List.length_cons, ih]
    rw [hoffs, List.length_dropLast, h2, List.length_map, h1]
    rfl
  generalize (cumsum0 (ss.map List.prod)).getLast?.getD 0 = total at hsubs
  have key : ∀ (offs : List Nat) (es subs : List Elem) (rs : List RRes), es.length = offs.length →
      (offs.zip es).mapM (fun p => mkMixedSub p.2 total p.1) = .ok subs → restrictL es dom closure = .ok rs →
      subs.length = es.length ∧ (∀ s ∈ subs, isMixedSub s = true) ∧ restrictSubs subs dom closure = .ok rs := by
    intro offs
    induction offs with
    | nil =>
      intro es subs rs hl hs hr
      have : es = [] := List.length_eq_zero_iff.1 hl
      subst this
      simp only [List.zip_nil_right, List.mapM_nil, pure, Except.pure, Except.ok.injEq] at hs
      subst hs
      exact ⟨rfl, by simp, hr⟩
    | cons o offs ih =>
      intro es subs rs hl hs hr
      cases es with
      | nil => simp at hl
      | cons e es =>
        simp only [List.zip_cons_cons, List.mapM_cons, bind_ok, pure, Except.pure, Except.ok.injEq] at hs
        obtain ⟨s, h1, subs', h2, rfl⟩ := hs
        simp only [restrictL, bind_ok, pure, Except.pure, Except.ok.injEq] at hr
        obtain ⟨r, hr1, rs', hr2, rfl⟩ := hr
        obtain ⟨i1, i2, i3⟩ := ih es subs' rs' (by simpa using hl) h2 hr2
        have : s = .mixedSub e total o := by
          simp only [mkMixedSub] at h1
          split at h1
          · rw [bind_ok] at h1
            obtain ⟨_, _, h1⟩ := h1
            split at h1
            · cases h1; rfl
            · cases h1
          · cases h1
        subst this
        refine ⟨by simp [i1], ?_, ?_⟩
        · intro x hx
          rcases List.mem_cons.1 hx with rfl | hx
          · rfl
          · exact i2 x hx
        · simp [restrictSubs, hr1, i3, bind, Except.bind, pure, Except.pure]
  obtain ⟨k1, k2, k3⟩ := key offs es subs rs hlo hsubs hr
  have hparts : subs.flatMap enrichedParts = subs := by
    have : ∀ s ∈ subs, enrichedParts s = [s] := by
      intro s hs
      have := k2 s hs
      cases s <;> first | rfl | simp [isMixedSub] at this
    rw [List.flatMap_congr this]
    simp
  have hmk : mkEnriched subs = .enriched subs := by
    unfold mkEnriched
    rw [hparts]
    split
    · simp at k1; omega
    · rfl
  rw [hmk]
  have hall : subs.all isMixedSub = true := List.all_eq_true.2 k2
  simp only [restrict, hall, if_true, k3, bind, Except.bind, hn]
  cases fs with
  | nil => simp [pure, Except.pure]
  | cons f fs =>
    simp only [reduceCtorEq, if_false]
    cases mkMixed (f :: fs) <;> rfl

/-- **C23, vector and tensor elements.** Restricting a tensor element restricts the scalar element and keeps shape
and layout. -/
theorem C23_tensor_layout (e e' : Elem) (shape : List Nat) (transpose : Bool) (dom : Domain) (closure : Bool)
    (h : restrict e dom closure = .ok (.elem e')) :
    restrict (.tensorFE e shape transpose) dom closure = .ok (.elem (.tensorFE e' shape transpose)) := by
  simp [restrict, h, bind, Except.bind, pure, Except.pure]

/-! ### C24 -/

/-- **C24.** Whenever `codim_to_r` names a codimension, `r_to_codim` maps that name back to it. -/
theorem C24_round_trip (codim dim : Int) (r : Domain) (h : codimToR codim dim = .ok r) :
    rToCodim r dim = .ok codim := by
  simp only [codimToR] at h
  split at h
  · cases h; subst_vars; rfl
  · split at h
    · cases h; subst_vars; rfl
    · split at h
      · cases h; simp only [rToCodim]; congr 1; omega
      · split at h
        · cases h; simp only [rToCodim]; congr 1; omega
        · split at h
          · cases h; simp only [rToCodim]; congr 1; omega
          · cases h

/-- **C24.** Both fail only with `ValueError`: `r_to_codim` exactly for unknown names, `codim_to_r` exactly for the
codimensions that have no name: neither the interior nor facets, and not of dimension 0, 1 or 2. -/
theorem C24_value_error (codim dim : Int) (r : Domain) :
    (∀ err, rToCodim r dim = .error err ↔ err = .valueError ∧ r = .other) ∧
    (∀ err, codimToR codim dim = .error err ↔ err = .valueError ∧ codim ≠ 0 ∧ codim ≠ 1 ∧
      dim - codim ≠ 0 ∧ dim - codim ≠ 1 ∧ dim - codim ≠ 2) := by
  constructor
  · intro err
    cases r <;> simp [rToCodim, eq_comm]
  · intro err
    simp only [codimToR]
    split
    · simp_all
    · split
      · simp_all
      · split
        · simp_all
        · split
          · simp_all
          · split
            · simp_all
            · simp_all [eq_comm]

/-- Codimension two in four dimensions is `"face"`, and there is no name for dimension three in five. -/
example : codimToR 2 4 = .ok .face ∧ rToCodim .face 4 = .ok 2 ∧ codimToR 2 5 = .error .valueError := by
  refine ⟨rfl, rfl, rfl⟩

/-! ### C25 -/

/-- **C25, partial.** The restriction of an element takes values of the same shape as the element. Missing: mixed
elements, for which it is false (`C25_mixed_shape`). -/
theorem C25_value_shape_partial (e : Elem) (he : Restrictable e) (dom : Domain) (closure : Bool) (c : Cell)
    (vs : List Nat) (hc : e.cell = .ok c) (hv : e.valueShape = .ok vs) (hd : DomainOK dom c.spatialDim) (e' : Elem)
    (hr : restrict e dom closure = .ok (.elem e')) : e'.valueShape = .ok vs ∧ e'.cell = .ok c := by
  obtain ⟨r, hr', hok⟩ := restrict_ok (K := ℤ) (φ := ⟨fun _ _ _ _ _ _ => 0, fun _ _ _ _ => 0⟩)
    ⟨fun _ _ _ _ _ _ => 0, by intros; split <;> rfl⟩ e he c vs dom closure hc hv hd
  rw [hr] at hr'
  cases hr'
  exact (parts_attrs hok.2.2.1 hok.2.2.2.1).symm

/-- The mixed element `CG1 x DG0` on the interval. -/
def mixedCG1DG0 : Elem := .enriched [.mixedSub (.leaf cg1) 2 0, .mixedSub (.leaf dg0) 2 1]

theorem mixedCG1DG0_eq : mkMixed [.leaf cg1, .leaf dg0] = .ok mixedCG1DG0 := by rfl

/-- **C25 fails for mixed elements**: restricted to its vertices, `CG1 x DG0`, with values of shape `(2,)`, becomes
an element with values of shape `(1,)`, since the second part is dropped instead of being kept as zero. -/
theorem C25_mixed_shape : mixedCG1DG0.valueShape = .ok [2] ∧
    ∃ e', restrictedElement mixedCG1DG0 .vertex = .ok (.elem e') ∧ e'.valueShape = .ok [1] :=
  ⟨rfl, _, rfl, rfl⟩

/-! ### C26 -/

/-- **C26, partial.** For elements with a restriction rule and domains naming entities of their cell,
`RestrictedElement` returns an element or raises `ValueError`. -/
theorem C26_result_partial (e : Elem) (he : Restrictable e) (dom : Domain) (c : Cell)
    (vs : List Nat) (hc : e.cell = .ok c) (hv : e.valueShape = .ok vs) (hd : DomainOK dom c.spatialDim) :
    (∃ e', restrictedElement e dom = .ok (.elem e') ∧ Good e') ∨ restrictedElement e dom = .error .valueError := by
  obtain ⟨r, hr, hok⟩ := restrict_ok (K := ℤ) (φ := ⟨fun _ _ _ _ _ _ => 0, fun _ _ _ _ => 0⟩)
    ⟨fun _ _ _ _ _ _ => 0, by intros; split <;> rfl⟩ e he c vs dom true hc hv hd
  match r, hok with
  | .null, _ => exact Or.inr (by simp [restrictedElement, hr, bind, Except.bind])
  | .elem e', hok => exact Or.inl ⟨e', by simp [restrictedElement, hr, bind, Except.bind, pure, Except.pure], hok.1⟩

/-- **C26.** Physically mapped elements are refused with `NotImplementedError`. -/
theorem C26_physically_mapped (l : Leaf) (hk : l.kind = .physicallyMapped) (dom : Domain) :
    restrictedElement (.leaf l) dom = .error .notImplemented := by
  simp [restrictedElement, restrict, hk, bind, Except.bind]

/-- **C26 fails for elements without a rule**: the default rule returns the exception object instead of raising it,
so `RestrictedElement` of a quadrature element returns something that is not an element. -/
theorem C26_no_rule (rule : Nat) (c : Cell) (ext : List Nat) (dom : Domain) :
    restrictedElement (.quadrature rule c ext) dom = .ok .notElem := rfl

/-- **C26 fails for mixed elements of one element**: `MixedElement([e])` is a bare `MixedSubElement`, for which
`RestrictedElement` raises `AssertionError`. -/
theorem C26_single_mixed (e : Elem) (vs : List Nat) (hv : e.valueShape = .ok vs) (dom : Domain) :
    ∃ m, mkMixed [e] = .ok m ∧ restrictedElement m dom = .error .assertionError := by
  refine ⟨.mixedSub e vs.prod 0, ?_, rfl⟩
  simp [mkMixed, valueShapeL, hv, cumsum0, cumsum0.go, mkMixedSub, mkEnriched, enrichedParts, bind, Except.bind,
    pure, Except.pure]

/-- **C26 fails for products with product factors**: comparing a codimension with the tuple-valued dimension of the
factor raises `TypeError`. -/
theorem C26_nested_product :
    restrictedElement (.tensorProduct [.tensorProduct [.leaf cg1, .leaf cg1], .leaf cg1]) .facet =
      .error .typeError := by rfl

/-- `"face"` of a discontinuous element on a quadrilateral names its interior, but the result is empty: the rule
compares names, not dimensions. This is why `DomainOK` excludes names of the interior other than `"interior"`. -/
theorem C23_interior_by_another_name :
    restrictedElement (.discontinuous q2) .face = .error .valueError ∧
    ∃ e', restrictedElement (.discontinuous q2) .interior = .ok (.elem e') := ⟨rfl, _, rfl⟩

/-! ### Examples -/

theorem restrictable_cg2 : Restrictable (.leaf cg2) := ⟨good_cg2, trivial, Or.inl rfl⟩
theorem restrictable_cg1 : Restrictable (.leaf cg1) := ⟨good_cg1, trivial, Or.inl rfl⟩
theorem restrictable_dg0 : Restrictable (.leaf dg0) := by
  refine ⟨good_dg0, trivial, Or.inr (Or.inl ⟨rfl, ?_⟩)⟩
  intro D n h
  by_contra hD
  apply h
  by_cases h0 : D = .int 0
  · subst h0
    match n with
    | 0 => rfl
    | 1 => rfl
    | n + 2 => rfl
  · have h1 : ¬ (Dim.int 0 = D) := fun h => h0 h.symm
    have h2 : ¬ (Dim.int 1 = D) := fun h => hD h.symm
    simp [dofsOn, dg0, Dict.get?, h1, h2]

theorem restrictable_q2 : Restrictable q2 := by
  refine ⟨⟨by simp, ⟨restrictable_cg2, restrictable_cg2, trivial⟩, ?_⟩, ?_⟩
  · intro f hf c hc
    simp only [List.mem_cons, List.not_mem_nil, or_false, or_self] at hf
    subst hf
    cases hc
    exact ⟨trivial, by decide⟩
  · intro c hc
    cases hc
    exact ⟨Nat.le_refl 1, Nat.le_refl 1, trivial⟩

/-- Basis functions of leaves with given values. -/
def labelled (ψ : Nat → Nat → BFun K) : LeafVals K where
  leaf l α ent x i z := match l.fns[i.headD 0]? with
    | some f => ψ l.id f α ent x z
    | none => 0
  quad _ _ _ _ := 0

theorem labelled_ok (ψ : Nat → Nat → BFun K) : Labelled (labelled ψ) := ⟨ψ, fun _ _ _ _ _ _ => rfl⟩

/-- Non-vacuity: Q2 on the quadrilateral, restricted to its facets: eight functions are left. -/
example (ψ : Nat → Nat → BFun ℚ) := C23_restricted_element_partial (labelled ψ) (labelled_ok ψ) q2 restrictable_q2 .facet
  .quad [] 1 rfl rfl ⟨1, rfl, by decide, by intro h; cases h⟩ rfl

example : ∃ e', restrictedElement q2 .facet = .ok (.elem e') ∧ e'.spaceDim = 8 ∧ e'.valueShape = .ok [] :=
  ⟨_, rfl, rfl, rfl⟩

example : ∃ e', restrictedElement q2 .interior = .ok (.elem e') ∧ e'.spaceDim = 1 := ⟨_, rfl, rfl⟩

/-- Lowest order Raviart-Thomas functions on a product of intervals, one direction. -/
def rtPart : Elem := .hdiv (.tensorProduct [.leaf cg1, .leaf dg0])

theorem restrictable_rtPart : Restrictable rtPart := by
  refine ⟨⟨_, rfl⟩, ⟨by simp, ⟨restrictable_cg1, restrictable_dg0, trivial⟩, ?_⟩, ?_, ⟨_, rfl⟩, rfl⟩
  · intro f hf c hc
    simp only [List.mem_cons, List.not_mem_nil, or_false] at hf
    rcases hf with rfl | rfl <;> cases hc <;> exact ⟨trivial, by decide⟩
  · exact ⟨trivial, trivial, trivial⟩

example (ψ : Nat → Nat → BFun ℚ) := C23_restriction_keeps_partial (labelled ψ) (labelled_ok ψ) rtPart restrictable_rtPart
  .facet false (.prod [.simplex 1, .simplex 1]) [2] rfl rfl ⟨1, rfl, by decide, by intro h; cases h⟩

example : ∃ e', restrictedElement rtPart .facet = .ok (.elem e') ∧ e'.spaceDim = 2 ∧
    restrictedElement rtPart .interior = .error .valueError := ⟨_, rfl, rfl, rfl⟩

example := C25_value_shape_partial q2 restrictable_q2 .facet true .quad [] rfl rfl
  ⟨1, rfl, by decide, by intro h; cases h⟩ _ rfl

example := C26_result_partial q2 restrictable_q2 .vertex .quad [] rfl rfl
  ⟨0, rfl, by decide, by intro h; cases h⟩

example := C23_tensor_layout (.leaf cg2) _ [3] true .vertex true rfl

/-- The vertices of a quadrilateral: two codimensions one. -/
example := C23_codimensions [.simplex 1, .simplex 1] [.int 0, .int 0] .vertex false 0 rfl (by decide)
  (.cons (by decide) (.cons (by decide) .nil))

/-- `CG1 x DG0` on the vertices. -/
example := C23_mixed [.leaf cg1, .leaf dg0] mixedCG1DG0 .vertex true _ _ (by decide) rfl rfl rfl

end FInAT.Props
