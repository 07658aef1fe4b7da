import Verif.Props.DeRham7

/-!
# C110: dimensions of the complexes
-/

namespace FInAT.Props

open FInAT Spec

section
variable {K : Type} [CommRing K] {φ : LeafVals K} {H : Cell} {a b p n d : Elem}

theorem spaceDim_two (e₁ e₂ : Elem) : (Elem.tensorProduct [e₁, e₂]).spaceDim = e₁.spaceDim * e₂.spaceDim := by
  simp [Elem.spaceDim, Elem.spaceDimL]

theorem spaceDim_sum (e₁ e₂ : Elem) : (Elem.enriched [e₁, e₂]).spaceDim = e₁.spaceDim + e₂.spaceDim := by
  simp [Elem.spaceDim, Elem.spaceDimL]

/-- On the square: if `a` has one function more than `b`, the dimensions of the complex alternate to one, as they do for the complex of
all smooth functions on a cell. -/
theorem C110_dimensions (h : IntervalComplex φ a b) (hab : a.spaceDim = b.spaceDim + 1) :
    ∃ h₁ h₂ q₁ q₂, mkHCurl (.tensorProduct [b, a]) = .ok h₁ ∧ mkHCurl (.tensorProduct [a, b]) = .ok h₂ ∧
      mkHDiv (.tensorProduct [a, b]) = .ok q₁ ∧ mkHDiv (.tensorProduct [b, a]) = .ok q₂ ∧
      (Elem.tensorProduct [a, a]).spaceDim + (Elem.tensorProduct [b, b]).spaceDim = (mkEnriched [h₁, h₂]).spaceDim + 1 ∧
      (Elem.tensorProduct [a, a]).spaceDim + (Elem.tensorProduct [b, b]).spaceDim = (mkEnriched [q₁, q₂]).spaceDim + 1 := by
  refine ⟨_, _, _, _, mkHCurl_two h.formB h.formA rfl (selectHcurl_ba h), mkHCurl_two h.formA h.formB rfl (selectHcurl_ab h),
    mkHDiv_two h.cellA h.cellB h.formA h.formB rfl (selectHdiv_ab h),
    mkHDiv_two h.cellB h.cellA h.formB h.formA rfl (selectHdiv_ba h), ?_, ?_⟩
  · show _ = (Elem.enriched [.hcurl (.tensorProduct [b, a]), .hcurl (.tensorProduct [a, b])]).spaceDim + 1
    rw [spaceDim_sum, Elem.spaceDim.eq_9, Elem.spaceDim.eq_9, spaceDim_two, spaceDim_two, spaceDim_two, spaceDim_two, hab]
    ring
  · show _ = (Elem.enriched [.hdiv (.tensorProduct [a, b]), .hdiv (.tensorProduct [b, a])]).spaceDim + 1
    rw [spaceDim_sum, Elem.spaceDim.eq_8, Elem.spaceDim.eq_8, spaceDim_two, spaceDim_two, spaceDim_two, spaceDim_two, hab]
    ring

/-- On prisms: if the same holds for the plane complex and for the interval, it holds for the complex on the prism. -/
theorem C110_prism_dimensions (P : PlaneComplex φ H p n d) (I : IntervalComplex φ a b) (hab : a.spaceDim = b.spaceDim + 1)
    (hpd : p.spaceDim + d.spaceDim = n.spaceDim + 1) :
    ∃ h₁ h₂ q₁ q₂, mkHCurl (.tensorProduct [n, a]) = .ok h₁ ∧ mkHCurl (.tensorProduct [p, b]) = .ok h₂ ∧
      mkHDiv (.tensorProduct [n, b]) = .ok q₁ ∧ mkHDiv (.tensorProduct [d, a]) = .ok q₂ ∧
      (Elem.tensorProduct [p, a]).spaceDim + (mkEnriched [q₁, q₂]).spaceDim =
        (mkEnriched [h₁, h₂]).spaceDim + (Elem.tensorProduct [d, b]).spaceDim + 1 := by
  refine ⟨_, _, _, _, mkHCurl_two P.formN I.formA rfl (selectHcurl_na P I), mkHCurl_two P.formP I.formB rfl (selectHcurl_pb P I),
    mkHDiv_prism P.dim P.cellN I.cellB P.formN I.formB rfl (selectHdiv_nb P I),
    mkHDiv_prism P.dim P.cellD I.cellA P.formD I.formA rfl (selectHdiv_da P I), ?_⟩
  show _ + (Elem.enriched [.hdiv (.tensorProduct [n, b]), .hdiv (.tensorProduct [d, a])]).spaceDim =
    (Elem.enriched [.hcurl (.tensorProduct [n, a]), .hcurl (.tensorProduct [p, b])]).spaceDim + _ + 1
  rw [spaceDim_sum, spaceDim_sum, Elem.spaceDim.eq_8, Elem.spaceDim.eq_8, Elem.spaceDim.eq_9, Elem.spaceDim.eq_9]
  simp only [spaceDim_two, hab]
  have e1 : p.spaceDim * (b.spaceDim + 1) + (n.spaceDim * b.spaceDim + d.spaceDim * (b.spaceDim + 1)) =
      (p.spaceDim + d.spaceDim) * (b.spaceDim + 1) + n.spaceDim * b.spaceDim := by ring
  have e2 : n.spaceDim * (b.spaceDim + 1) + p.spaceDim * b.spaceDim + d.spaceDim * b.spaceDim + 1 =
      (p.spaceDim + d.spaceDim) * b.spaceDim + n.spaceDim * (b.spaceDim + 1) + 1 := by ring
  rw [e1, e2, hpd]
  ring

end

example := C110_dimensions DeRhamCases.cg_dg rfl
example := C110_prism_dimensions DeRhamCases.tri DeRhamCases.cg_dg3 rfl rfl

end FInAT.Props
