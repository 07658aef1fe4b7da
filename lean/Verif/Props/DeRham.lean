import Verif.Lemmas.DeRham
import Verif.Props.Dofs

/-!
# C110: gradient, curl and divergence map the tensor product elements into each other

From elements `a`, `b` on the interval such that derivatives of functions of `a` are functions of `b` the constructors build the
elements of the complexes grad-curl and rot-div on the square: `a ⊗ a`, the sums of `HCurlElement` or `HDivElement` of `a ⊗ b` and
`b ⊗ a`, and `b ⊗ b`. Every operator maps the functions of an element to functions of the next one.
-/

namespace FInAT.Props

open FInAT Spec

section
variable {K : Type} [CommRing K] {φ : LeafVals K} {a b : Elem}

theorem formdegrees_two {e₁ e₂ : Elem} {k₁ k₂ : Option Nat} (h₁ : e₁.formdegree = .ok k₁) (h₂ : e₂.formdegree = .ok k₂) :
    Elem.formdegreeL [e₁, e₂] = .ok [k₁, k₂] := by
  simp only [Elem.formdegreeL, h₁, h₂, bind, Except.bind, pure, Except.pure]

theorem cell_square {e₁ e₂ : Elem} (h₁ : e₁.cell = .ok (.simplex 1)) (h₂ : e₂.cell = .ok (.simplex 1)) :
    (Elem.tensorProduct [e₁, e₂]).cell = .ok square := by
  simp only [Elem.cell, cell_two h₁ h₂, bind, Except.bind, pure, Except.pure, square]

theorem mapping_two {e₁ e₂ : Elem} (h₁ : e₁.mapping = some .affine) (h₂ : e₂.mapping = some .affine) :
    (Elem.tensorProduct [e₁, e₂]).mapping = some .affine := by
  simp only [Elem.mapping, Elem.mappingL, h₁, h₂]
  rfl

theorem selectHdiv_ab (h : IntervalComplex φ a b) : selectHdiv [a, b] = .ok [.entry true [], .zero] := by
  simp only [selectHdiv, h.cellB, h.formA, h.formB, bind, Except.bind]
  rfl

theorem selectHdiv_ba (h : IntervalComplex φ a b) : selectHdiv [b, a] = .ok [.zero, .entry false []] := by
  simp only [selectHdiv, h.cellA, h.formA, h.formB, bind, Except.bind]
  rfl

theorem selectHcurl_ab (h : IntervalComplex φ a b) : selectHcurl [a, b] = .ok [.zero, .entry false []] := by
  simp only [selectHcurl, h.cellB, h.formA, h.formB, cell_square h.cellA h.cellB, mapping_two h.mapA h.mapB, bind, Except.bind]
  rfl

theorem selectHcurl_ba (h : IntervalComplex φ a b) : selectHcurl [b, a] = .ok [.entry false [], .zero] := by
  simp only [selectHcurl, h.cellA, h.formA, h.formB, cell_square h.cellB h.cellA, mapping_two h.mapB h.mapA, bind, Except.bind]
  rfl

theorem mkHDiv_two {e₁ e₂ : Elem} {k₁ k₂ : Nat} {comps : List Comp} (c₁ : e₁.cell = .ok (.simplex 1))
    (c₂ : e₂.cell = .ok (.simplex 1)) (h₁ : e₁.formdegree = .ok (some k₁)) (h₂ : e₂.formdegree = .ok (some k₂))
    (hk : k₁ + k₂ = 1) (hs : selectHdiv [e₁, e₂] = .ok comps) :
    mkHDiv (.tensorProduct [e₁, e₂]) = .ok (.hdiv (.tensorProduct [e₁, e₂])) := by
  have hd : square.spatialDim = 2 := rfl
  have hc : ([some k₁, some k₂] : List (Option Nat)).contains none = false := rfl
  have hf : ([some k₁, some k₂] : List (Option Nat)).filterMap id = [k₁, k₂] := rfl
  simp only [mkHDiv, formdegrees_two h₁ h₂, cell_square c₁ c₂, hs, bind, Except.bind, hc, hf, hd]
  simp [hk, pure, Except.pure]

theorem mkHCurl_two {e₁ e₂ : Elem} {k₁ k₂ : Nat} {comps : List Comp} (h₁ : e₁.formdegree = .ok (some k₁))
    (h₂ : e₂.formdegree = .ok (some k₂)) (hk : k₁ + k₂ = 1) (hs : selectHcurl [e₁, e₂] = .ok comps) :
    mkHCurl (.tensorProduct [e₁, e₂]) = .ok (.hcurl (.tensorProduct [e₁, e₂])) := by
  have hc : ([some k₁, some k₂] : List (Option Nat)).contains none = false := rfl
  have hf : ([some k₁, some k₂] : List (Option Nat)).filterMap id = [k₁, k₂] := rfl
  simp only [mkHCurl, formdegrees_two h₁ h₂, hs, bind, Except.bind, hc, hf]
  simp [hk, pure, Except.pure]

theorem plainEntries_ok {neg : Bool} {comps : List Comp} (h : comps = [.entry neg [], .zero] ∨ comps = [.zero, .entry neg []]) :
    ∀ n ix, Comp.entry n ix ∈ comps → InRange ix ([] : List Nat) := by
  intro n ix hm
  rcases h with rfl | rfl <;> simp at hm <;> rw [hm.2] <;> exact .nil

theorem range2 {z : List Nat} (h : InRange z [2]) : z = [0] ∨ z = [1] := by
  cases h with
  | @cons k _ t _ hk ht =>
  cases ht
  match k, hk with
  | 0, _ => exact .inl rfl
  | 1, _ => exact .inr rfl

/-- **Property C110**: `HDivElement` accepts `a ⊗ b` and `b ⊗ a`, and the divergence of every function of the sum of the two is a
function of `b ⊗ b`. -/
theorem C110_divergence (h : IntervalComplex φ a b) : ∃ h₁ h₂, mkHDiv (.tensorProduct [a, b]) = .ok h₁ ∧
    mkHDiv (.tensorProduct [b, a]) = .ok h₂ ∧ ∀ f, InSpace φ (mkEnriched [h₁, h₂]) square [2] f →
      InSpace φ (.tensorProduct [b, b]) square [] (divJet 2 f) := by
  refine ⟨_, _, mkHDiv_two h.cellA h.cellB h.formA h.formB rfl (selectHdiv_ab h),
    mkHDiv_two h.cellB h.cellA h.formB h.formA rfl (selectHdiv_ba h), fun f hf => ?_⟩
  obtain ⟨f₁, f₂, hf₁, hf₂, hsum⟩ := sum_inv hf
  obtain ⟨g₁, hg₁, e₁⟩ := hdiv_inv (w := .tensorProduct [a, b]) (selectHdiv_ab h) (plainEntries_ok (.inl rfl)) hf₁
  obtain ⟨g₂, hg₂, e₂⟩ := hdiv_inv (w := .tensorProduct [b, a]) (selectHdiv_ba h) (plainEntries_ok (.inr rfl)) hf₂
  have d₁ := partial_first h.cellA h.cellB h.cellB h.scalarA h.scalarB h.scalarB h.derives g₁ hg₁
  have d₂ := partial_second h.cellA h.cellB h.cellB h.scalarA h.scalarB h.scalarB h.derives g₂ hg₂
  refine inSpace_congr (inSpace_add (inSpace_smul (-1) d₁) d₂) fun α x z hα hx _ => ?_
  have l0 : (bump 0 α).length = square.spatialDim := by rw [length_bump]; exact hα
  have l1 : (bump 1 α).length = square.spatialDim := by rw [length_bump]; exact hα
  have r0 : InRange [0] [2] := .cons (by decide) .nil
  have r1 : InRange [1] [2] := .cons (by decide) .nil
  have hs : divJet 2 f α x z = f (bump 0 α) x [0] + (f (bump 1 α) x [1] + 0) := rfl
  rw [hs, hsum _ x _ l0 hx r0, hsum _ x _ l1 hx r1, e₁ _ x _ l0 hx r0, e₁ _ x _ l1 hx r1, e₂ _ x _ l0 hx r0, e₂ _ x _ l1 hx r1]
  show (-g₁ (bump 0 α) x [] + 0) + ((0 + g₂ (bump 1 α) x []) + 0) = -1 * g₁ (bump 0 α) x [] + g₂ (bump 1 α) x []
  ring

/-- `HCurlElement` accepts `b ⊗ a` and `a ⊗ b`, and the curl of every function of the sum of the two is a function of `b ⊗ b`. -/
theorem C110_curl (h : IntervalComplex φ a b) : ∃ h₁ h₂, mkHCurl (.tensorProduct [b, a]) = .ok h₁ ∧
    mkHCurl (.tensorProduct [a, b]) = .ok h₂ ∧ ∀ f, InSpace φ (mkEnriched [h₁, h₂]) square [2] f →
      InSpace φ (.tensorProduct [b, b]) square [] (curlJet f) := by
  refine ⟨_, _, mkHCurl_two h.formB h.formA rfl (selectHcurl_ba h), mkHCurl_two h.formA h.formB rfl (selectHcurl_ab h),
    fun f hf => ?_⟩
  obtain ⟨f₁, f₂, hf₁, hf₂, hsum⟩ := sum_inv hf
  obtain ⟨g₁, hg₁, e₁⟩ := hcurl_inv (w := .tensorProduct [b, a]) (selectHcurl_ba h) (plainEntries_ok (.inl rfl)) hf₁
  obtain ⟨g₂, hg₂, e₂⟩ := hcurl_inv (w := .tensorProduct [a, b]) (selectHcurl_ab h) (plainEntries_ok (.inr rfl)) hf₂
  have d₁ := partial_second h.cellA h.cellB h.cellB h.scalarA h.scalarB h.scalarB h.derives g₁ hg₁
  have d₂ := partial_first h.cellA h.cellB h.cellB h.scalarA h.scalarB h.scalarB h.derives g₂ hg₂
  refine inSpace_congr (inSpace_add (inSpace_smul (-1) d₁) d₂) fun α x z hα hx _ => ?_
  have l0 : (bump 0 α).length = square.spatialDim := by rw [length_bump]; exact hα
  have l1 : (bump 1 α).length = square.spatialDim := by rw [length_bump]; exact hα
  have r0 : InRange [0] [2] := .cons (by decide) .nil
  have r1 : InRange [1] [2] := .cons (by decide) .nil
  have hs : curlJet f α x z = f (bump 0 α) x [1] - f (bump 1 α) x [0] := rfl
  rw [hs, hsum _ x _ l0 hx r1, hsum _ x _ l1 hx r0, e₁ _ x _ l0 hx r1, e₁ _ x _ l1 hx r0, e₂ _ x _ l0 hx r1, e₂ _ x _ l1 hx r0]
  show (0 + g₂ (bump 0 α) x []) - (g₁ (bump 1 α) x [] + 0) = -1 * g₁ (bump 1 α) x [] + g₂ (bump 0 α) x []
  ring

/-- The gradient of every function of `a ⊗ a` is a function of the sum of `HCurlElement` of `b ⊗ a` and of `a ⊗ b`. -/
theorem C110_gradient (h : IntervalComplex φ a b) : ∃ h₁ h₂, mkHCurl (.tensorProduct [b, a]) = .ok h₁ ∧
    mkHCurl (.tensorProduct [a, b]) = .ok h₂ ∧ ∀ f, InSpace φ (.tensorProduct [a, a]) square [] f →
      InSpace φ (mkEnriched [h₁, h₂]) square [2] (gradJet f) := by
  refine ⟨_, _, mkHCurl_two h.formB h.formA rfl (selectHcurl_ba h), mkHCurl_two h.formA h.formB rfl (selectHcurl_ab h),
    fun f hf => ?_⟩
  have d₁ := partial_first h.cellA h.cellB h.cellA h.scalarA h.scalarB h.scalarA h.derives f hf
  have d₂ := partial_second h.cellA h.cellB h.cellA h.scalarA h.scalarB h.scalarA h.derives f hf
  refine inSpace_congr (inSpace_sum (inSpace_hcurl (ws := [2]) (selectHcurl_ba h) (plainEntries_ok (.inl rfl)) d₁)
    (inSpace_hcurl (selectHcurl_ab h) (plainEntries_ok (.inr rfl)) d₂)) fun α x z hα hx hz => ?_
  rcases range2 hz with rfl | rfl
  · exact (add_zero (f (bump 0 α) x [])).symm
  · exact (zero_add (f (bump 1 α) x [])).symm

/-- The turned gradient of every function of `a ⊗ a` is a function of the sum of `HDivElement` of `a ⊗ b` and of `b ⊗ a`. -/
theorem C110_rot (h : IntervalComplex φ a b) : ∃ h₁ h₂, mkHDiv (.tensorProduct [a, b]) = .ok h₁ ∧
    mkHDiv (.tensorProduct [b, a]) = .ok h₂ ∧ ∀ f, InSpace φ (.tensorProduct [a, a]) square [] f →
      InSpace φ (mkEnriched [h₁, h₂]) square [2] (rotJet f) := by
  refine ⟨_, _, mkHDiv_two h.cellA h.cellB h.formA h.formB rfl (selectHdiv_ab h),
    mkHDiv_two h.cellB h.cellA h.formB h.formA rfl (selectHdiv_ba h), fun f hf => ?_⟩
  have d₁ := inSpace_smul (-1) (partial_second h.cellA h.cellB h.cellA h.scalarA h.scalarB h.scalarA h.derives f hf)
  have d₂ := inSpace_smul (-1) (partial_first h.cellA h.cellB h.cellA h.scalarA h.scalarB h.scalarA h.derives f hf)
  refine inSpace_congr (inSpace_sum (inSpace_hdiv (ws := [2]) (selectHdiv_ab h) (plainEntries_ok (.inl rfl)) d₁)
    (inSpace_hdiv (selectHdiv_ba h) (plainEntries_ok (.inr rfl)) d₂)) fun α x z hα hx hz => ?_
  rcases range2 hz with rfl | rfl
  · show f (bump 1 α) x [] = -(-1 * f (bump 1 α) x []) + 0
    ring
  · show -f (bump 0 α) x [] = 0 + -1 * f (bump 0 α) x []
    ring

end

/-! ### The hypotheses hold for `CG1` and `DG0` -/

namespace DeRhamCases

/-- The basis functions of `CG1` and `DG0` on the interval and their derivatives. -/
def vals : LeafVals ℚ where
  leaf l α _ x i _ := match l.id, i, α with
    | 0, [0], [0] => 1 - x.headD 0
    | 0, [1], [0] => x.headD 0
    | 0, [0], [1] => -1
    | 0, [1], [1] => 1
    | 2, [0], [0] => 1
    | _, _, _ => 0
  quad _ _ _ _ _ := 0

theorem cg_dg : IntervalComplex vals (.leaf cg1) (.leaf dg0) where
  cellA := rfl
  cellB := rfl
  scalarA := rfl
  scalarB := rfl
  formA := rfl
  formB := rfl
  mapA := rfl
  mapB := rfl
  derives := by
    rintro f ⟨c, hc⟩
    refine ⟨fun _ => c [1] - c [0], fun α x z hα hx hz => ?_⟩
    have h := hc (bump 0 α) x [] (by rw [length_bump]; exact hα) hx .nil
    cases hz
    refine Eq.trans h ?_
    match α, hα with
    | [0], _ =>
      show c [0] * -1 + (c [1] * 1 + 0) = (c [1] - c [0]) * 1 + 0
      ring
    | [k + 1], _ =>
      show c [0] * 0 + (c [1] * 0 + 0) = (c [1] - c [0]) * 0 + 0
      ring

/-- Every basis function of the lowest order Raviart-Thomas element on the square, and a divergence that is not zero: the
function of node 0 of the first summand is `(x - 1, 0)`. -/
example : ∃ h₁ h₂, mkHDiv (.tensorProduct [.leaf cg1, .leaf dg0]) = .ok h₁ ∧
    mkHDiv (.tensorProduct [.leaf dg0, .leaf cg1]) = .ok h₂ ∧ (mkEnriched [h₁, h₂]).spaceDim = 4 ∧
    divJet 2 (basisJet vals (mkEnriched [h₁, h₂]) square [0]) [0, 0] [1/3, 1/4] [] = 1 :=
  ⟨_, _, rfl, rfl, rfl, by decide +kernel⟩

end DeRhamCases
end FInAT.Props
