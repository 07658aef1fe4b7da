import Verif.Props.DeRham4

/-!
# C110 on quadrilaterals, and hexahedra as products of a quadrilateral and an interval
-/

namespace FInAT.Props

open FInAT Spec

section
variable {K : Type} [CommRing K] {φ : LeafVals K} {a b : Elem}

/-- `FlattenedDimensions` has the functions of the product. -/
theorem C110_flattened {p : Elem} {c cf : Cell} (hc : p.cell = .ok c) (hf : (Elem.flattened p).cell = .ok cf) (vs : List Nat)
    (f : Jet K) : InSpace φ (.flattened p) cf vs f ↔ InSpace φ p c vs f := by
  have hsd := flattened_spatialDim hc hf
  unfold InSpace
  simp only [Elem.indexShape, basisValue, productEnt_cell hc hf, hsd]

theorem flattened_square {p : Elem} (h : p.cell = .ok square) : (Elem.flattened p).cell = .ok .quad := by
  simp only [Elem.cell, h, bind, Except.bind]
  rfl

theorem sum_square {h₁ h₂ : Elem} (c₁ : h₁.cell = .ok square) (c₂ : h₂.cell = .ok square) :
    (Elem.enriched [h₁, h₂]).cell = .ok square := by
  simp [Elem.cell, Elem.cellL, c₁, c₂, bind, Except.bind, pure, Except.pure, uniqueOf]

theorem sum_formdegree {h₁ h₂ : Elem} {k : Nat} (c₁ : h₁.formdegree = .ok (some k)) (c₂ : h₂.formdegree = .ok (some k)) :
    (Elem.enriched [h₁, h₂]).formdegree = .ok (some k) := by
  simp [Elem.formdegree, Elem.formdegreeL, c₁, c₂, bind, Except.bind, pure, Except.pure, maxList]

theorem sum_valueShape {h₁ h₂ : Elem} {vs : List Nat} (c₁ : h₁.valueShape = .ok vs) (c₂ : h₂.valueShape = .ok vs) :
    (Elem.enriched [h₁, h₂]).valueShape = .ok vs := by
  simp [Elem.valueShape, Elem.valueShapeL, c₁, c₂, bind, Except.bind, pure, Except.pure, uniqueOf]

theorem sum_mapping {h₁ h₂ : Elem} {m : Option Mapping} (c₁ : h₁.mapping = m) (c₂ : h₂.mapping = m) :
    (Elem.enriched [h₁, h₂]).mapping = m := by
  simp [Elem.mapping, Elem.mappingL, c₁, c₂]

theorem two_formdegree {e₁ e₂ : Elem} {k₁ k₂ : Nat} (h₁ : e₁.formdegree = .ok (some k₁)) (h₂ : e₂.formdegree = .ok (some k₂)) :
    (Elem.tensorProduct [e₁, e₂]).formdegree = .ok (some (k₁ + k₂)) := by
  simp [Elem.formdegree, formdegrees_two h₁ h₂, bind, Except.bind, pure, Except.pure]

theorem two_valueShape {e₁ e₂ : Elem} (h₁ : e₁.valueShape = .ok []) (h₂ : e₂.valueShape = .ok []) :
    (Elem.tensorProduct [e₁, e₂]).valueShape = .ok [] := by
  simp only [Elem.valueShape, Elem.valueShapeL, h₁, h₂, bind, Except.bind, pure, Except.pure]
  rfl

/-- The elements on quadrilaterals built from `a` and `b` by the constructors, with `HCurlElement`, are again a complex as in
`C110_prism_gradient`, `C110_prism_curl` and `C110_prism_divergence`, which therefore hold for their products with `a` and `b`. -/
theorem C110_quadrilateral (h : IntervalComplex φ a b) : ∃ h₁ h₂, mkHCurl (.tensorProduct [b, a]) = .ok h₁ ∧
    mkHCurl (.tensorProduct [a, b]) = .ok h₂ ∧
    PlaneComplex φ .quad (.flattened (.tensorProduct [a, a])) (.flattened (mkEnriched [h₁, h₂]))
      (.flattened (.tensorProduct [b, b])) := by
  obtain ⟨h₁, h₂, e₁, e₂, hg⟩ := C110_gradient h
  obtain ⟨q₁, q₂, s₁, s₂, hcu⟩ := C110_curl h
  cases e₁.symm.trans s₁
  cases e₂.symm.trans s₂
  refine ⟨h₁, h₂, e₁, e₂, ?_⟩
  cases e₁.symm.trans (mkHCurl_two h.formB h.formA rfl (selectHcurl_ba h))
  cases e₂.symm.trans (mkHCurl_two h.formA h.formB rfl (selectHcurl_ab h))
  have ca := cell_square h.cellA h.cellA
  have cb := cell_square h.cellB h.cellB
  have c₁ : (Elem.hcurl (.tensorProduct [b, a])).cell = .ok square := cell_square h.cellB h.cellA
  have c₂ : (Elem.hcurl (.tensorProduct [a, b])).cell = .ok square := cell_square h.cellA h.cellB
  have cs := sum_square c₁ c₂
  refine ⟨rfl, flattened_square ca, flattened_square cs, flattened_square cb, two_valueShape h.scalarA h.scalarA,
    sum_valueShape ?_ ?_, two_valueShape h.scalarB h.scalarB, two_formdegree h.formA h.formA, sum_formdegree ?_ ?_,
    two_formdegree h.formB h.formB, mapping_two h.mapA h.mapA, sum_mapping (h₁ := .hcurl (.tensorProduct [b, a])) (h₂ := .hcurl (.tensorProduct [a, b])) rfl rfl, fun f hf => ?_, fun f hf => ?_⟩
  · simp only [Elem.valueShape, cell_square h.cellB h.cellA, bind, Except.bind]; rfl
  · simp only [Elem.valueShape, cell_square h.cellA h.cellB, bind, Except.bind]; rfl
  · first | rfl | (simp only [Elem.formdegree, cell_square h.cellB h.cellA, bind, Except.bind]; rfl)
  · first | rfl | (simp only [Elem.formdegree, cell_square h.cellA h.cellB, bind, Except.bind]; rfl)
  · exact (C110_flattened cs (flattened_square cs) [2] _).2 (hg f ((C110_flattened ca (flattened_square ca) [] f).1 hf))
  · exact (C110_flattened cb (flattened_square cb) [] _).2 (hcu f ((C110_flattened cs (flattened_square cs) [2] f).1 hf))

/-- The same with `HDivElement` and the divergence. -/
theorem C110_quadrilateral_flux (h : IntervalComplex φ a b) : ∃ h₁ h₂, mkHDiv (.tensorProduct [a, b]) = .ok h₁ ∧
    mkHDiv (.tensorProduct [b, a]) = .ok h₂ ∧
    PlaneFluxComplex φ .quad (.flattened (.tensorProduct [a, a])) (.flattened (mkEnriched [h₁, h₂]))
      (.flattened (.tensorProduct [b, b])) := by
  obtain ⟨h₁, h₂, e₁, e₂, hg⟩ := C110_rot h
  obtain ⟨q₁, q₂, s₁, s₂, hcu⟩ := C110_divergence h
  cases e₁.symm.trans s₁
  cases e₂.symm.trans s₂
  refine ⟨h₁, h₂, e₁, e₂, ?_⟩
  cases e₁.symm.trans (mkHDiv_two h.cellA h.cellB h.formA h.formB rfl (selectHdiv_ab h))
  cases e₂.symm.trans (mkHDiv_two h.cellB h.cellA h.formB h.formA rfl (selectHdiv_ba h))
  have ca := cell_square h.cellA h.cellA
  have cb := cell_square h.cellB h.cellB
  have c₁ : (Elem.hdiv (.tensorProduct [a, b])).cell = .ok square := cell_square h.cellA h.cellB
  have c₂ : (Elem.hdiv (.tensorProduct [b, a])).cell = .ok square := cell_square h.cellB h.cellA
  have cs := sum_square c₁ c₂
  refine ⟨rfl, flattened_square ca, flattened_square cs, flattened_square cb, two_valueShape h.scalarA h.scalarA,
    sum_valueShape ?_ ?_, two_valueShape h.scalarB h.scalarB, two_formdegree h.formA h.formA, sum_formdegree ?_ ?_,
    two_formdegree h.formB h.formB, mapping_two h.mapA h.mapA, sum_mapping (h₁ := .hdiv (.tensorProduct [a, b])) (h₂ := .hdiv (.tensorProduct [b, a])) rfl rfl, fun f hf => ?_, fun f hf => ?_⟩
  · simp only [Elem.valueShape, cell_square h.cellA h.cellB, bind, Except.bind]; rfl
  · simp only [Elem.valueShape, cell_square h.cellB h.cellA, bind, Except.bind]; rfl
  · first | rfl | (simp only [Elem.formdegree, cell_square h.cellA h.cellB, bind, Except.bind]; rfl)
  · first | rfl | (simp only [Elem.formdegree, cell_square h.cellB h.cellA, bind, Except.bind]; rfl)
  · exact (C110_flattened cs (flattened_square cs) [2] _).2 (hg f ((C110_flattened ca (flattened_square ca) [] f).1 hf))
  · exact (C110_flattened cb (flattened_square cb) [] _).2 (hcu f ((C110_flattened cs (flattened_square cs) [2] f).1 hf))

end

/-! Both apply to `CG1` and `DG0`, and the prism theorems to the result. -/

example := C110_quadrilateral DeRhamCases.cg_dg
example := C110_quadrilateral_flux DeRhamCases.cg_dg

example : ∃ h₁ h₂, PlaneFluxComplex DeRhamCases.vals .quad (.flattened (.tensorProduct [.leaf cg1, .leaf cg1]))
    (.flattened (mkEnriched [h₁, h₂])) (.flattened (.tensorProduct [.leaf dg0, .leaf dg0])) ∧
    ∃ q₁ q₂, mkHDiv (.tensorProduct [.flattened (mkEnriched [h₁, h₂]), .leaf dg0]) = .ok q₁ ∧
      mkHDiv (.tensorProduct [.flattened (.tensorProduct [.leaf dg0, .leaf dg0]), .leaf cg1]) = .ok q₂ := by
  obtain ⟨h₁, h₂, _, _, hP⟩ := C110_quadrilateral_flux DeRhamCases.cg_dg
  obtain ⟨q₁, q₂, s₁, s₂, _⟩ := C110_prism_flux_divergence hP DeRhamCases.cg_dg
  exact ⟨h₁, h₂, hP, q₁, q₂, s₁, s₂⟩

end FInAT.Props
