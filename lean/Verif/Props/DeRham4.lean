import Verif.Props.DeRham3

/-!
# C110 on extruded cells with Raviart-Thomas elements on the plane cell
-/

namespace FInAT.Props

open FInAT Spec

section
variable {K : Type} [CommRing K] {φ : LeafVals K} {H : Cell} {a b p r d : Elem}

/-- The turned gradient along the plane cell. -/
theorem plane_rot (P : PlaneFluxComplex φ H p r d) {v : Elem} (cv : v.cell = .ok (.simplex 1)) (sv : v.valueShape = .ok [])
    (f : Jet K) (hf : InSpace φ (.tensorProduct [p, v]) (prism H) [] f) :
    InSpace φ (.tensorProduct [r, v]) (prism H) [2] (rotJet f) := by
  have l : ∀ k (α : List Nat), α.length = (prism H).spatialDim → (bump k α).length = (prism H).spatialDim :=
    fun k α hα => by rw [length_bump]; exact hα
  refine maps_of_basis rotJet (fun f g hfg α x z hα hx hz => ?_) (fun m c F α x z => ?_) (fun j hj => ?_) f hf
  · rcases range2 hz with rfl | rfl
    · exact hfg _ x [] (l 1 α hα) hx .nil
    · exact congrArg (fun t => -t) (hfg _ x [] (l 0 α hα) hx .nil)
  · unfold rotJet
    split_ifs
    · rfl
    · rw [← lsum_neg]
      exact lsum_congr fun j _ => by ring
  rw [indexShape_two] at hj
  have hsp := (show InB j _ from hj).split
  rw [← List.take_append_drop p.indexShape.length j]
  refine inSpace_congr (inSpace_prod P.cellR cv P.vectorR sv (P.rot _ (inSpace_basis p H [] hsp.1))
    (inSpace_basis v (.simplex 1) [] hsp.2)) fun α x z hα hx hz => ?_
  have h0 := basis_two (φ := φ) P.cellP cv P.scalarP sv hsp.1 hsp.2 (bump 0 α) x [] (l 0 α hα) hx .nil
  have h1 := basis_two (φ := φ) P.cellP cv P.scalarP sv hsp.1 hsp.2 (bump 1 α) x [] (l 1 α hα) hx .nil
  rw [prism_dim P.dim] at hα
  obtain ⟨s, t, u, rfl⟩ := three hα
  rw [P.dim] at h0 h1 ⊢
  rcases range2 hz with rfl | rfl
  · exact h1
  · exact (congrArg (fun t => -t) h0).trans (neg_mul _ _).symm

/-- The divergence along the plane cell. -/
theorem plane_div (P : PlaneFluxComplex φ H p r d) {v : Elem} (cv : v.cell = .ok (.simplex 1)) (sv : v.valueShape = .ok [])
    (f : Jet K) (hf : InSpace φ (.tensorProduct [r, v]) (prism H) [2] f) :
    InSpace φ (.tensorProduct [d, v]) (prism H) [] (divJet 2 f) := by
  have r0 : InRange [0] [2] := .cons (by decide) .nil
  have r1 : InRange [1] [2] := .cons (by decide) .nil
  have hdiv : ∀ (f : Jet K) α x z, divJet 2 f α x z = f (bump 0 α) x [0] + (f (bump 1 α) x [1] + 0) := fun _ _ _ _ => rfl
  refine maps_of_basis (divJet 2) (fun f g hfg α x z hα hx _ => ?_) (fun l c F α x z => ?_) (fun j hj => ?_) f hf
  · rw [hdiv, hdiv, hfg (bump 0 α) x [0] (by rw [length_bump]; exact hα) hx r0,
      hfg (bump 1 α) x [1] (by rw [length_bump]; exact hα) hx r1]
  · rw [hdiv, add_zero, ← lsum_add]
    refine lsum_congr fun j _ => ?_
    rw [hdiv]
    ring
  rw [indexShape_two] at hj
  have hsp := (show InB j _ from hj).split
  rw [← List.take_append_drop r.indexShape.length j]
  refine inSpace_congr (inSpace_prod P.cellD cv P.scalarD sv (P.divergence _ (inSpace_basis r H [2] hsp.1))
    (inSpace_basis v (.simplex 1) [] hsp.2)) fun α x z hα hx hz => ?_
  have h0 := basis_two (φ := φ) P.cellR cv P.vectorR sv hsp.1 hsp.2 (bump 0 α) x [0] (by rw [length_bump]; exact hα) hx r0
  have h1 := basis_two (φ := φ) P.cellR cv P.vectorR sv hsp.1 hsp.2 (bump 1 α) x [1] (by rw [length_bump]; exact hα) hx r1
  rw [hdiv, add_zero]
  refine (congrArg₂ (· + ·) h0 h1).trans ?_
  rw [prism_dim P.dim] at hα
  obtain ⟨s, t, u, rfl⟩ := three hα
  cases hz
  rw [P.dim]
  simp only [prodJet, hdiv, add_zero]
  exact (add_mul _ _ _).symm

theorem mapping_flux {e₁ e₂ : Elem} (h₁ : e₁.mapping = some .contravariantPiola) (h₂ : e₂.mapping = some .affine) :
    (Elem.tensorProduct [e₁, e₂]).mapping = some .contravariantPiola := by
  simp only [Elem.mapping, Elem.mappingL, h₁, h₂]
  rfl

theorem selectHdiv_rb (P : PlaneFluxComplex φ H p r d) (I : IntervalComplex φ a b) :
    selectHdiv [r, b] = .ok [.entry false [0], .entry false [1], .zero] := by
  simp only [selectHdiv, I.cellB, P.formR, I.formB, mapping_flux P.mapR I.mapB, bind, Except.bind]
  rfl

theorem selectHdiv_da' (P : PlaneFluxComplex φ H p r d) (I : IntervalComplex φ a b) :
    selectHdiv [d, a] = .ok [.zero, .zero, .entry false []] := by
  simp only [selectHdiv, I.cellA, P.formD, I.formA, bind, Except.bind]
  rfl

theorem selectHcurl_ra (P : PlaneFluxComplex φ H p r d) (I : IntervalComplex φ a b) :
    selectHcurl [r, a] = .ok [.entry true [1], .entry false [0], .zero] := by
  simp only [selectHcurl, I.cellA, P.formR, I.formA, cell_prism P.cellR I.cellA, mapping_flux P.mapR I.mapA, bind, Except.bind]
  rfl

theorem selectHcurl_pb' (P : PlaneFluxComplex φ H p r d) (I : IntervalComplex φ a b) :
    selectHcurl [p, b] = .ok [.zero, .zero, .entry false []] := by
  simp only [selectHcurl, I.cellB, P.formP, I.formB, cell_prism P.cellP I.cellB, mapping_two P.mapP I.mapB, bind, Except.bind,
    prism_dim P.dim]
  rfl

/-- On prisms: the gradient of every function of `p ⊗ a` is a function of the sum of `HCurlElement` of `r ⊗ a` and `p ⊗ b`. -/
theorem C110_prism_flux_gradient (P : PlaneFluxComplex φ H p r d) (I : IntervalComplex φ a b) :
    ∃ h₁ h₂, mkHCurl (.tensorProduct [r, a]) = .ok h₁ ∧ mkHCurl (.tensorProduct [p, b]) = .ok h₂ ∧
      ∀ f, InSpace φ (.tensorProduct [p, a]) (prism H) [] f → InSpace φ (mkEnriched [h₁, h₂]) (prism H) [3] (gradJet f) := by
  refine ⟨_, _, mkHCurl_two P.formR I.formA rfl (selectHcurl_ra P I), mkHCurl_two P.formP I.formB rfl (selectHcurl_pb' P I),
    fun f hf => ?_⟩
  have d₁ := plane_rot P I.cellA I.scalarA f hf
  have d₂ := plane_up (vs := []) P.dim I P.cellP P.scalarP f hf
  refine inSpace_congr (inSpace_sum (inSpace_hcurl (ws := [3]) (w := .tensorProduct [r, a]) (selectHcurl_ra P I)
    (vectorEntries_ok (by decide) (by decide)) d₁)
    (inSpace_hcurl (w := .tensorProduct [p, b]) (selectHcurl_pb' P I) topEntries_ok d₂)) fun α x z hα hx hz => ?_
  rcases range3 hz with rfl | rfl | rfl
  · show f (bump 0 α) x [] = -(-f (bump 0 α) x []) + 0
    ring
  · exact (add_zero (f (bump 1 α) x [])).symm
  · exact (zero_add (f (bump 2 α) x [])).symm

/-- On prisms: the curl of every function of the sum of `HCurlElement` of `r ⊗ a` and `p ⊗ b` is a function of the sum of
`HDivElement` of `r ⊗ b` and `d ⊗ a`. -/
theorem C110_prism_flux_curl (P : PlaneFluxComplex φ H p r d) (I : IntervalComplex φ a b) :
    ∃ h₁ h₂ q₁ q₂, mkHCurl (.tensorProduct [r, a]) = .ok h₁ ∧ mkHCurl (.tensorProduct [p, b]) = .ok h₂ ∧
      mkHDiv (.tensorProduct [r, b]) = .ok q₁ ∧ mkHDiv (.tensorProduct [d, a]) = .ok q₂ ∧
      ∀ f, InSpace φ (mkEnriched [h₁, h₂]) (prism H) [3] f → InSpace φ (mkEnriched [q₁, q₂]) (prism H) [3] (curl3Jet f) := by
  refine ⟨_, _, _, _, mkHCurl_two P.formR I.formA rfl (selectHcurl_ra P I), mkHCurl_two P.formP I.formB rfl (selectHcurl_pb' P I),
    mkHDiv_prism P.dim P.cellR I.cellB P.formR I.formB rfl (selectHdiv_rb P I),
    mkHDiv_prism P.dim P.cellD I.cellA P.formD I.formA rfl (selectHdiv_da' P I), fun f hf => ?_⟩
  obtain ⟨f₁, f₂, hf₁, hf₂, hsum⟩ := sum_inv hf
  obtain ⟨g, hg, e₁⟩ := hcurl_inv (w := .tensorProduct [r, a]) (selectHcurl_ra P I)
    (vectorEntries_ok (by decide) (by decide)) hf₁
  obtain ⟨v, hv, e₂⟩ := hcurl_inv (w := .tensorProduct [p, b]) (selectHcurl_pb' P I) topEntries_ok hf₂
  have d₁ := plane_rot P I.cellB I.scalarB v hv
  have d₂ := inSpace_smul (-1) (plane_up (vs := [2]) P.dim I P.cellR P.vectorR g hg)
  have d₃ := plane_div P I.cellA I.scalarA g hg
  refine inSpace_congr (inSpace_sum (inSpace_hdiv (ws := [3]) (w := .tensorProduct [r, b]) (selectHdiv_rb P I)
    (vectorEntries_ok (by decide) (by decide)) (inSpace_add d₁ d₂))
    (inSpace_hdiv (w := .tensorProduct [d, a]) (selectHdiv_da' P I) topEntries_ok d₃)) fun α x z hα hx hz => ?_
  have l : ∀ k, (bump k α).length = (prism H).spatialDim := fun k => by rw [length_bump]; exact hα
  have r0 : InRange [0] [3] := .cons (by decide) .nil
  have r1 : InRange [1] [3] := .cons (by decide) .nil
  have r2 : InRange [2] [3] := .cons (by decide) .nil
  have v0 : ∀ k, f (bump k α) x [0] = -g (bump k α) x [1] + 0 := fun k => by
    rw [hsum _ x _ (l k) hx r0, e₁ _ x _ (l k) hx r0, e₂ _ x _ (l k) hx r0]; rfl
  have v1 : ∀ k, f (bump k α) x [1] = g (bump k α) x [0] + 0 := fun k => by
    rw [hsum _ x _ (l k) hx r1, e₁ _ x _ (l k) hx r1, e₂ _ x _ (l k) hx r1]; rfl
  have v2 : ∀ k, f (bump k α) x [2] = 0 + v (bump k α) x [] := fun k => by
    rw [hsum _ x _ (l k) hx r2, e₁ _ x _ (l k) hx r2, e₂ _ x _ (l k) hx r2]; rfl
  rcases range3 hz with rfl | rfl | rfl
  · show f (bump 1 α) x [2] - f (bump 2 α) x [1] = (v (bump 1 α) x [] + -1 * g (bump 2 α) x [0]) + 0
    rw [v2, v1]
    ring
  · show f (bump 2 α) x [0] - f (bump 0 α) x [2] = (-v (bump 0 α) x [] + -1 * g (bump 2 α) x [1]) + 0
    rw [v2, v0]
    ring
  · show f (bump 0 α) x [1] - f (bump 1 α) x [0] = 0 + (g (bump 0 α) x [0] + (g (bump 1 α) x [1] + 0))
    rw [v1, v0]
    ring

/-- On prisms: the divergence of every function of the sum of `HDivElement` of `r ⊗ b` and `d ⊗ a` is a function of `d ⊗ b`. -/
theorem C110_prism_flux_divergence (P : PlaneFluxComplex φ H p r d) (I : IntervalComplex φ a b) :
    ∃ q₁ q₂, mkHDiv (.tensorProduct [r, b]) = .ok q₁ ∧ mkHDiv (.tensorProduct [d, a]) = .ok q₂ ∧
      ∀ f, InSpace φ (mkEnriched [q₁, q₂]) (prism H) [3] f → InSpace φ (.tensorProduct [d, b]) (prism H) [] (divJet 3 f) := by
  refine ⟨_, _, mkHDiv_prism P.dim P.cellR I.cellB P.formR I.formB rfl (selectHdiv_rb P I),
    mkHDiv_prism P.dim P.cellD I.cellA P.formD I.formA rfl (selectHdiv_da' P I), fun f hf => ?_⟩
  obtain ⟨f₁, f₂, hf₁, hf₂, hsum⟩ := sum_inv hf
  obtain ⟨g, hg, e₁⟩ := hdiv_inv (w := .tensorProduct [r, b]) (selectHdiv_rb P I)
    (vectorEntries_ok (by decide) (by decide)) hf₁
  obtain ⟨v, hv, e₂⟩ := hdiv_inv (w := .tensorProduct [d, a]) (selectHdiv_da' P I) topEntries_ok hf₂
  have d₁ := plane_div P I.cellB I.scalarB g hg
  have d₂ := plane_up (vs := []) P.dim I P.cellD P.scalarD v hv
  refine inSpace_congr (inSpace_add d₁ d₂) fun α x z hα hx hz => ?_
  cases hz
  have l : ∀ k, (bump k α).length = (prism H).spatialDim := fun k => by rw [length_bump]; exact hα
  have r0 : InRange [0] [3] := .cons (by decide) .nil
  have r1 : InRange [1] [3] := .cons (by decide) .nil
  have r2 : InRange [2] [3] := .cons (by decide) .nil
  have v0 : f (bump 0 α) x [0] = g (bump 0 α) x [0] + 0 := by
    rw [hsum _ x _ (l 0) hx r0, e₁ _ x _ (l 0) hx r0, e₂ _ x _ (l 0) hx r0]; rfl
  have v1 : f (bump 1 α) x [1] = g (bump 1 α) x [1] + 0 := by
    rw [hsum _ x _ (l 1) hx r1, e₁ _ x _ (l 1) hx r1, e₂ _ x _ (l 1) hx r1]; rfl
  have v2 : f (bump 2 α) x [2] = 0 + v (bump 2 α) x [] := by
    rw [hsum _ x _ (l 2) hx r2, e₁ _ x _ (l 2) hx r2, e₂ _ x _ (l 2) hx r2]; rfl
  have hs : divJet 3 f α x [] = f (bump 0 α) x [0] + (f (bump 1 α) x [1] + (f (bump 2 α) x [2] + 0)) := rfl
  rw [hs, v0, v1, v2]
  show _ = (g (bump 0 α) x [0] + (g (bump 1 α) x [1] + 0)) + v (bump 2 α) x []
  ring

end

/-! ### The hypotheses hold for linear, lowest order Raviart-Thomas and constant elements on the triangle -/

namespace DeRhamCases

/-- Raviart-Thomas elements of lowest order on the triangle. -/
def triR : Leaf := ⟨13, .fiat, .simplex 2, some 1, [2], some .contravariantPiola, 1, [0, 1, 2],
  [(.int 0, [(0, []), (1, []), (2, [])]), (.int 1, [(0, [0]), (1, [1]), (2, [2])]), (.int 2, [(0, [])])]⟩

/-- The functions `(-x, -y)`, `(x - 1, y)`, `(-x, 1 - y)` and their derivatives. -/
def rtVals (x y : ℚ) : List Nat → Nat → Nat → ℚ
  | [0, 0], 0, 0 => -x
  | [0, 0], 0, 1 => -y
  | [0, 0], 1, 0 => x - 1
  | [0, 0], 1, 1 => y
  | [0, 0], 2, 0 => -x
  | [0, 0], 2, 1 => 1 - y
  | [1, 0], 0, 0 => -1
  | [1, 0], 1, 0 => 1
  | [1, 0], 2, 0 => -1
  | [0, 1], 0, 1 => -1
  | [0, 1], 1, 1 => 1
  | [0, 1], 2, 1 => -1
  | _, _, _ => 0

/-- The basis functions of all elements used here, and their derivatives. -/
def vals4 : LeafVals ℚ where
  leaf l α e x i z := match l.id with
    | 13 => rtVals (x.headD 0) (x.getD 1 0) α (i.headD 0) (z.headD 0)
    | _ => vals3.leaf l α e x i z
  quad _ _ _ _ _ := 0

theorem cg_dg4 : IntervalComplex vals4 (.leaf cg1) (.leaf dg0) where
  cellA := rfl
  cellB := rfl
  scalarA := rfl
  scalarB := rfl
  formA := rfl
  formB := rfl
  mapA := rfl
  mapB := rfl
  derives := cg_dg.derives

theorem triFlux : PlaneFluxComplex vals4 (.simplex 2) (.leaf triP) (.leaf triR) (.leaf triD) where
  dim := rfl
  cellP := rfl
  cellR := rfl
  cellD := rfl
  scalarP := rfl
  vectorR := rfl
  scalarD := rfl
  formP := rfl
  formR := rfl
  formD := rfl
  mapP := rfl
  mapR := rfl
  rot := by
    rintro f ⟨c, hc⟩
    refine ⟨fun j => match j.headD 0 with | 0 => c [1] - c [2] | 1 => c [0] - c [2] | _ => c [0] - c [1],
      fun α x z hα hx hz => ?_⟩
    have h0 := hc (bump 0 α) x [] (by rw [length_bump]; exact hα) hx .nil
    have h1 := hc (bump 1 α) x [] (by rw [length_bump]; exact hα) hx .nil
    obtain ⟨r, s, rfl⟩ := two hα
    rcases range2 hz with rfl | rfl
    · refine Eq.trans h1 ?_
      show c [0] * linVals (x.headD 0) (x.getD 1 0) [r, s + 1] 0 + (c [1] * linVals (x.headD 0) (x.getD 1 0) [r, s + 1] 1 +
        (c [2] * linVals (x.headD 0) (x.getD 1 0) [r, s + 1] 2 + 0)) =
        (c [1] - c [2]) * rtVals (x.headD 0) (x.getD 1 0) [r, s] 0 0 + ((c [0] - c [2]) *
        rtVals (x.headD 0) (x.getD 1 0) [r, s] 1 0 + ((c [0] - c [1]) * rtVals (x.headD 0) (x.getD 1 0) [r, s] 2 0 + 0))
      rcases r with _ | _ | r <;> rcases s with _ | _ | s <;> simp [linVals, rtVals] <;> ring
    · refine Eq.trans (congrArg (fun t => -t) h0) ?_
      show -(c [0] * linVals (x.headD 0) (x.getD 1 0) [r + 1, s] 0 + (c [1] * linVals (x.headD 0) (x.getD 1 0) [r + 1, s] 1 +
        (c [2] * linVals (x.headD 0) (x.getD 1 0) [r + 1, s] 2 + 0))) =
        (c [1] - c [2]) * rtVals (x.headD 0) (x.getD 1 0) [r, s] 0 1 + ((c [0] - c [2]) *
        rtVals (x.headD 0) (x.getD 1 0) [r, s] 1 1 + ((c [0] - c [1]) * rtVals (x.headD 0) (x.getD 1 0) [r, s] 2 1 + 0))
      rcases r with _ | _ | r <;> rcases s with _ | _ | s <;> simp [linVals, rtVals] <;> ring
  divergence := by
    rintro f ⟨c, hc⟩
    refine ⟨fun _ => 2 * (c [1] - c [0] - c [2]), fun α x z hα hx hz => ?_⟩
    have h0 := hc (bump 0 α) x [0] (by rw [length_bump]; exact hα) hx (.cons (by decide) .nil)
    have h1 := hc (bump 1 α) x [1] (by rw [length_bump]; exact hα) hx (.cons (by decide) .nil)
    refine Eq.trans (congrArg₂ (fun s t => s + (t + 0)) h0 h1) ?_
    obtain ⟨r, s, rfl⟩ := two hα
    show (c [0] * rtVals (x.headD 0) (x.getD 1 0) [r + 1, s] 0 0 + (c [1] * rtVals (x.headD 0) (x.getD 1 0) [r + 1, s] 1 0 +
        (c [2] * rtVals (x.headD 0) (x.getD 1 0) [r + 1, s] 2 0 + 0))) +
      ((c [0] * rtVals (x.headD 0) (x.getD 1 0) [r, s + 1] 0 1 + (c [1] * rtVals (x.headD 0) (x.getD 1 0) [r, s + 1] 1 1 +
        (c [2] * rtVals (x.headD 0) (x.getD 1 0) [r, s + 1] 2 1 + 0))) + 0) =
      2 * (c [1] - c [0] - c [2]) * (if [r, s] = [0, 0] then 1 else 0) + 0
    rcases r with _ | _ | r <;> rcases s with _ | _ | s <;> simp [rtVals] <;> ring

example := C110_prism_flux_gradient triFlux cg_dg4
example := C110_prism_flux_curl triFlux cg_dg4
example := C110_prism_flux_divergence triFlux cg_dg4

end DeRhamCases
end FInAT.Props
