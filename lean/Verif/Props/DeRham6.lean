import Verif.Props.DeRham5

/-!
# C110: divergence and curl onto
-/

namespace FInAT.Props

open FInAT Spec

section
variable {K : Type} [CommRing K] {φ : LeafVals K} {H : Cell} {a b e p n r d : Elem}

theorem bump_append (s : List Nat) : ∀ l : List Nat, bump l.length (l ++ s) = l ++ bump 0 s
  | [] => rfl
  | t :: l => congrArg (t :: ·) (bump_append s l)

theorem bump_take {k : Nat} {α : List Nat} (h : k ≤ α.length) : (bump k α).take k = α.take k ∧ (bump k α).drop k = bump 0 (α.drop k) := by
  have hl : (α.take k).length = k := by rw [List.length_take]; omega
  have hb : bump k α = α.take k ++ bump 0 (α.drop k) := by
    have := bump_append (α.drop k) (α.take k)
    rwa [hl, List.take_append_drop] at this
  rw [hb]
  exact ⟨List.take_left' hl, List.drop_left' hl⟩

/-- Antiderivatives along the interval factor. -/
theorem antiderivative_second (I : IntervalComplex φ a b) (hs : Antiderivatives φ a b) (ce : e.cell = .ok H)
    (ve : e.valueShape = .ok []) (g : Jet K) (hg : InSpace φ (.tensorProduct [e, b]) (.prod [H, .simplex 1]) [] g) :
    ∃ f, InSpace φ (.tensorProduct [e, a]) (.prod [H, .simplex 1]) [] f ∧
      ∀ α x, α.length = H.spatialDim + 1 → x.length = H.spatialDim + 1 → f (bump H.spatialDim α) x [] = g α x [] := by
  classical
  obtain ⟨c, hc⟩ := (inSpace_eq ..).1 hg
  have hF : ∀ j, ∃ f : Jet K, InSpace φ a (.simplex 1) [] f ∧ (InRange j b.indexShape →
      ∀ α x, α.length = 1 → x.length = 1 → partialAt 0 [] f α x [] = basisJet φ b (.simplex 1) j α x []) := by
    intro j
    by_cases hj : InRange j b.indexShape
    · obtain ⟨f, h1, h2⟩ := hs _ (inSpace_basis b (.simplex 1) [] hj)
      exact ⟨f, h1, fun _ => h2⟩
    · exact ⟨_, inSpace_zero a _ _, fun h => absurd h hj⟩
  choose F hF1 hF2 using hF
  refine ⟨_, inSpace_lsum c (fun j => prodJet H.spatialDim 0 (basisJet φ e H (j.take e.indexShape.length))
    (F (j.drop e.indexShape.length))) (ndindex (Elem.tensorProduct [e, b]).indexShape) fun j hj => ?_, fun α x hα hx => ?_⟩
  · have hj := mem_ndindex.1 hj
    rw [indexShape_two] at hj
    exact inSpace_prod ce I.cellA ve I.scalarA (inSpace_basis e H [] (show InB j _ from hj).split.1) (hF1 _)
  · have hsd : (Cell.prod [H, .simplex 1]).spatialDim = H.spatialDim + 1 := by
      simp only [Cell.spatialDim, Cell.spatialDimL]
    rw [hc α x [] (by rw [hsd]; exact hα) (by rw [hsd]; exact hx) .nil]
    refine lsum_congr fun j hj => ?_
    have hj := mem_ndindex.1 hj
    rw [indexShape_two] at hj
    have hsp := (show InB j _ from hj).split
    have hb := basis_two (φ := φ) ce I.cellB ve I.scalarB hsp.1 hsp.2 α x [] (by rw [hsd]; exact hα) (by rw [hsd]; exact hx) .nil
    rw [List.take_append_drop] at hb
    rw [hb]
    refine congrArg (c j * ·) ?_
    have ht := bump_take (k := H.spatialDim) (α := α) (by omega)
    have h2 := hF2 (j.drop e.indexShape.length) hsp.2 (α.drop H.spatialDim) (x.drop H.spatialDim)
      (by rw [List.length_drop]; omega) (by rw [List.length_drop]; omega)
    show _ * F _ ((bump H.spatialDim α).drop H.spatialDim) _ [] = _ * basisJet φ b _ _ _ _ []
    rw [← h2, ht.1, ht.2]
    rfl

/-- On the square: if every function of `b` is the derivative of a function of `a`, every function of `b ⊗ b` is the divergence of
a function of the sum of the `HDivElement`s. -/
theorem C110_divergence_onto (h : IntervalComplex φ a b) (hs : Antiderivatives φ a b) :
    ∃ h₁ h₂, mkHDiv (.tensorProduct [a, b]) = .ok h₁ ∧ mkHDiv (.tensorProduct [b, a]) = .ok h₂ ∧
      ∀ g, InSpace φ (.tensorProduct [b, b]) square [] g → ∃ f, InSpace φ (mkEnriched [h₁, h₂]) square [2] f ∧
        ∀ α x, α.length = 2 → x.length = 2 → divJet 2 f α x [] = g α x [] := by
  refine ⟨_, _, mkHDiv_two h.cellA h.cellB h.formA h.formB rfl (selectHdiv_ab h),
    mkHDiv_two h.cellB h.cellA h.formB h.formA rfl (selectHdiv_ba h), fun g hg => ?_⟩
  obtain ⟨v, hv, e⟩ := antiderivative_second h hs h.cellB h.scalarB g hg
  refine ⟨_, inSpace_right (inSpace_hdiv (ws := [2]) (w := .tensorProduct [b, a]) (selectHdiv_ba h)
    (plainEntries_ok (.inr rfl)) hv), fun α x hα hx => ?_⟩
  show (0 : K) + (v (bump 1 α) x [] + 0) = _
  rw [zero_add, add_zero]
  exact e α x hα hx

/-- On the square: every function of `b ⊗ b` is the curl of a function of the sum of the `HCurlElement`s. -/
theorem C110_curl_onto (h : IntervalComplex φ a b) (hs : Antiderivatives φ a b) :
    ∃ h₁ h₂, mkHCurl (.tensorProduct [b, a]) = .ok h₁ ∧ mkHCurl (.tensorProduct [a, b]) = .ok h₂ ∧
      ∀ g, InSpace φ (.tensorProduct [b, b]) square [] g → ∃ f, InSpace φ (mkEnriched [h₁, h₂]) square [2] f ∧
        ∀ α x, α.length = 2 → x.length = 2 → curlJet f α x [] = g α x [] := by
  refine ⟨_, _, mkHCurl_two h.formB h.formA rfl (selectHcurl_ba h), mkHCurl_two h.formA h.formB rfl (selectHcurl_ab h),
    fun g hg => ?_⟩
  obtain ⟨v, hv, e⟩ := antiderivative_second h hs h.cellB h.scalarB g hg
  refine ⟨_, inSpace_left (inSpace_hcurl (ws := [2]) (w := .tensorProduct [b, a]) (selectHcurl_ba h)
    (plainEntries_ok (.inl rfl)) (inSpace_smul (-1) hv)), fun α x hα hx => ?_⟩
  show (0 : K) - (-1 * v (bump 1 α) x []) = _
  rw [← e α x hα hx]
  show _ = v (bump 1 α) x []
  ring

/-- On prisms: every function of `d ⊗ b` is the divergence of a function of the sum of `HDivElement` of `n ⊗ b` and `d ⊗ a`. -/
theorem C110_prism_divergence_onto (P : PlaneComplex φ H p n d) (I : IntervalComplex φ a b) (hs : Antiderivatives φ a b) :
    ∃ q₁ q₂, mkHDiv (.tensorProduct [n, b]) = .ok q₁ ∧ mkHDiv (.tensorProduct [d, a]) = .ok q₂ ∧
      ∀ g, InSpace φ (.tensorProduct [d, b]) (prism H) [] g → ∃ f, InSpace φ (mkEnriched [q₁, q₂]) (prism H) [3] f ∧
        ∀ α x, α.length = 3 → x.length = 3 → divJet 3 f α x [] = g α x [] := by
  refine ⟨_, _, mkHDiv_prism P.dim P.cellN I.cellB P.formN I.formB rfl (selectHdiv_nb P I),
    mkHDiv_prism P.dim P.cellD I.cellA P.formD I.formA rfl (selectHdiv_da P I), fun g hg => ?_⟩
  obtain ⟨v, hv, e⟩ := antiderivative_second I hs P.cellD P.scalarD g hg
  rw [P.dim] at e
  refine ⟨_, inSpace_right (inSpace_hdiv (ws := [3]) (w := .tensorProduct [d, a]) (selectHdiv_da P I) topEntries_ok hv),
    fun α x hα hx => ?_⟩
  show (0 : K) + (0 + (v (bump 2 α) x [] + 0)) = _
  rw [zero_add, zero_add, add_zero]
  exact e α x hα hx

/-- The same with Raviart-Thomas elements on the plane cell. -/
theorem C110_prism_flux_divergence_onto (P : PlaneFluxComplex φ H p r d) (I : IntervalComplex φ a b) (hs : Antiderivatives φ a b) :
    ∃ q₁ q₂, mkHDiv (.tensorProduct [r, b]) = .ok q₁ ∧ mkHDiv (.tensorProduct [d, a]) = .ok q₂ ∧
      ∀ g, InSpace φ (.tensorProduct [d, b]) (prism H) [] g → ∃ f, InSpace φ (mkEnriched [q₁, q₂]) (prism H) [3] f ∧
        ∀ α x, α.length = 3 → x.length = 3 → divJet 3 f α x [] = g α x [] := by
  refine ⟨_, _, mkHDiv_prism P.dim P.cellR I.cellB P.formR I.formB rfl (selectHdiv_rb P I),
    mkHDiv_prism P.dim P.cellD I.cellA P.formD I.formA rfl (selectHdiv_da' P I), fun g hg => ?_⟩
  obtain ⟨v, hv, e⟩ := antiderivative_second I hs P.cellD P.scalarD g hg
  rw [P.dim] at e
  refine ⟨_, inSpace_right (inSpace_hdiv (ws := [3]) (w := .tensorProduct [d, a]) (selectHdiv_da' P I) topEntries_ok hv),
    fun α x hα hx => ?_⟩
  show (0 : K) + (0 + (v (bump 2 α) x [] + 0)) = _
  rw [zero_add, zero_add, add_zero]
  exact e α x hα hx

end

namespace DeRhamCases

/-- Constants are derivatives of linear functions. -/
theorem cg_dg_onto : Antiderivatives vals4 (.leaf cg1) (.leaf dg0) := by
  rintro g ⟨c, hc⟩
  refine ⟨_, inSpace_smul (c [0]) (inSpace_basis (.leaf cg1) (.simplex 1) [] (j := [1]) (.cons (by decide) .nil)),
    fun α x hα hx => ?_⟩
  rw [hc α x [] hα hx .nil]
  match α, hα with
  | [0], _ => exact (add_zero (c [0] * 1)).symm
  | [k + 1], _ => exact (add_zero (c [0] * 0)).symm

theorem cg_dg_onto3 : Antiderivatives vals3 (.leaf cg1) (.leaf dg0) := cg_dg_onto

example := C110_divergence_onto cg_dg4 cg_dg_onto
example := C110_curl_onto cg_dg4 cg_dg_onto
example := C110_prism_divergence_onto tri cg_dg3 cg_dg_onto3
example := C110_prism_flux_divergence_onto triFlux cg_dg4 cg_dg_onto

end DeRhamCases
end FInAT.Props
