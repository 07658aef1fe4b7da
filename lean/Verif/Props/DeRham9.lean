import Verif.Props.DeRham8

/-!
# C110: the complexes on the square are exact
-/

namespace FInAT.Props

open FInAT Spec

section
variable {K : Type} [CommRing K] {φ : LeafVals K} {a b e e₁ e₂ : Elem}

theorem one_of {α : Type} {l : List α} (h : l.length = 1) : ∃ s, l = [s] := List.length_eq_one_iff.1 h

theorem two_of {α : Type} {l : List α} (h : l.length = 2) : ∃ s t, l = [s, t] := List.length_eq_two.1 h

theorem expand_two (c₁ : e₁.cell = .ok (.simplex 1)) (c₂ : e₂.cell = .ok (.simplex 1)) (v₁ : e₁.valueShape = .ok [])
    (v₂ : e₂.valueShape = .ok []) (u : Jet K) (hu : InSpace φ (.tensorProduct [e₁, e₂]) square [] u) :
    ∃ c : List Nat → K, ∀ r s x y, u [r, s] [x, y] [] = lsum (ndindex e₁.indexShape) fun j₁ => lsum (ndindex e₂.indexShape) fun j₂ =>
      c (j₁ ++ j₂) * (basisJet φ e₁ (.simplex 1) j₁ [r] [x] [] * basisJet φ e₂ (.simplex 1) j₂ [s] [y] []) := by
  obtain ⟨c, hc⟩ := (inSpace_eq ..).1 hu
  refine ⟨c, fun r s x y => ?_⟩
  rw [hc [r, s] [x, y] [] rfl rfl .nil, indexShape_two, lsum_ndindex_append]
  refine lsum_congr fun j₁ hj₁ => lsum_congr fun j₂ hj₂ => ?_
  rw [show square.dimension = (Cell.prod [.simplex 1, .simplex 1]).dimension from rfl,
    basis_two c₁ c₂ v₁ v₂ (mem_ndindex.1 hj₁) (mem_ndindex.1 hj₂) [r, s] [x, y] [] rfl rfl .nil]
  rfl

/-- A function of the product with the second variable fixed. -/
theorem slice_first (c₁ : e₁.cell = .ok (.simplex 1)) (c₂ : e₂.cell = .ok (.simplex 1)) (v₁ : e₁.valueShape = .ok [])
    (v₂ : e₂.valueShape = .ok []) (u : Jet K) (hu : InSpace φ (.tensorProduct [e₁, e₂]) square [] u) (s : Nat) (y : K) :
    InSpace φ e₁ (.simplex 1) [] fun α x _ => u (α ++ [s]) (x ++ [y]) [] := by
  obtain ⟨c, hc⟩ := expand_two c₁ c₂ v₁ v₂ u hu
  rw [inSpace_eq]
  refine ⟨fun j₁ => lsum (ndindex e₂.indexShape) fun j₂ => c (j₁ ++ j₂) * basisJet φ e₂ (.simplex 1) j₂ [s] [y] [],
    fun α x z hα hx hz => ?_⟩
  obtain ⟨r, rfl⟩ := one_of hα
  obtain ⟨x, rfl⟩ := one_of hx
  cases hz
  refine (hc r s x y).trans (lsum_congr fun j₁ _ => ?_)
  rw [← lsum_mul_right]
  refine lsum_congr fun j₂ _ => ?_
  show _ = _ * basisJet φ e₁ (.simplex 1) j₁ [r] [x] []
  ring

/-- A function of the product with the first variable fixed. -/
theorem slice_second (c₁ : e₁.cell = .ok (.simplex 1)) (c₂ : e₂.cell = .ok (.simplex 1)) (v₁ : e₁.valueShape = .ok [])
    (v₂ : e₂.valueShape = .ok []) (u : Jet K) (hu : InSpace φ (.tensorProduct [e₁, e₂]) square [] u) (r : Nat) (x : K) :
    InSpace φ e₂ (.simplex 1) [] fun α y _ => u (r :: α) (x :: y) [] := by
  obtain ⟨c, hc⟩ := expand_two c₁ c₂ v₁ v₂ u hu
  refine inSpace_congr (inSpace_lsum (fun _ : List Nat => (1 : K)) (fun j₁ α y z => lsum (ndindex e₂.indexShape) fun j₂ =>
    (c (j₁ ++ j₂) * basisJet φ e₁ (.simplex 1) j₁ [r] [x] []) * basisJet φ e₂ (.simplex 1) j₂ α y z) (ndindex e₁.indexShape)
    fun j₁ _ => ⟨_, fun _ _ _ _ _ _ => rfl⟩) fun α y z hα hy hz => ?_
  obtain ⟨s, rfl⟩ := one_of hα
  obtain ⟨y, rfl⟩ := one_of hy
  cases hz
  refine (hc r s x y).trans (lsum_congr fun j₁ _ => ?_)
  rw [one_mul]
  refine lsum_congr fun j₂ _ => ?_
  ring

/-- Antiderivatives along the first factor. -/
theorem antiderivative_first (I : IntervalComplex φ a b) (hs : Antiderivatives φ a b) (ce : e.cell = .ok (.simplex 1))
    (ve : e.valueShape = .ok []) (g : Jet K) (hg : InSpace φ (.tensorProduct [b, e]) square [] g) :
    ∃ f, InSpace φ (.tensorProduct [a, e]) square [] f ∧ ∀ r s x y, f [r + 1, s] [x, y] [] = g [r, s] [x, y] [] := by
  classical
  obtain ⟨c, hc⟩ := expand_two I.cellB ce I.scalarB ve g hg
  have hF : ∀ j, ∃ f : Jet K, InSpace φ a (.simplex 1) [] f ∧ (InRange j b.indexShape →
      ∀ α x, α.length = 1 → x.length = 1 → partialAt 0 [] f α x [] = basisJet φ b (.simplex 1) j α x []) := by
    intro j
    by_cases hj : InRange j b.indexShape
    · obtain ⟨f, h1, h2⟩ := hs _ (inSpace_basis b (.simplex 1) [] hj)
      exact ⟨f, h1, fun _ => h2⟩
    · exact ⟨_, inSpace_zero a _ _, fun h => absurd h hj⟩
  choose F hF1 hF2 using hF
  refine ⟨_, inSpace_lsum (fun _ : List Nat => (1 : K)) (fun j₁ α x z => lsum (ndindex e.indexShape) fun j₂ =>
    c (j₁ ++ j₂) * prodJet 1 0 (F j₁) (basisJet φ e (.simplex 1) j₂) α x z) (ndindex b.indexShape) fun j₁ _ =>
      inSpace_lsum (fun j₂ => c (j₁ ++ j₂)) (fun j₂ => prodJet 1 0 (F j₁) (basisJet φ e (.simplex 1) j₂)) (ndindex e.indexShape)
        fun j₂ hj₂ => inSpace_prod I.cellA ce I.scalarA ve (hF1 j₁) (inSpace_basis e (.simplex 1) [] (mem_ndindex.1 hj₂)),
    fun r s x y => ?_⟩
  refine Eq.trans ?_ (hc r s x y).symm
  refine lsum_congr fun j₁ hj₁ => ?_
  rw [one_mul]
  refine lsum_congr fun j₂ _ => ?_
  have h2 := hF2 j₁ (mem_ndindex.1 hj₁) [r] [x] rfl rfl
  rw [← h2]
  rfl

/-- Two functions with equal mixed derivatives have a potential. -/
theorem potential (I : IntervalComplex φ a b) (hs : Antiderivatives φ a b) (hk : OnlyConstants φ a) (u w : Jet K)
    (hu : InSpace φ (.tensorProduct [b, a]) square [] u) (hw : InSpace φ (.tensorProduct [a, b]) square [] w)
    (heq : ∀ r s x y, u [r, s + 1] [x, y] [] = w [r + 1, s] [x, y] []) :
    ∃ g, InSpace φ (.tensorProduct [a, a]) square [] g ∧ ∀ r s x y, g [r + 1, s] [x, y] [] = u [r, s] [x, y] [] ∧
      g [r, s + 1] [x, y] [] = w [r, s] [x, y] [] := by
  obtain ⟨G, hG, eG⟩ := antiderivative_first I hs I.cellA I.scalarA u hu
  -- the difference between `w` and the derivative of `G` does not depend on the first variable
  have hd : InSpace φ (.tensorProduct [a, b]) square [] fun α x z => w α x z + -1 * partialAt 1 [] G α x z :=
    inSpace_add hw (inSpace_smul (-1) (partial_second I.cellA I.cellB I.cellA I.scalarA I.scalarB I.scalarA I.derives G hG))
  have hh := slice_second I.cellA I.cellB I.scalarA I.scalarB _ hd 0 0
  obtain ⟨Q, hQ, eQ⟩ := hs _ hh
  have hconst : ∀ r s x y, w [r, s] [x, y] [] + -1 * G [r, s + 1] [x, y] [] =
      (w [0, s] [0, y] [] + -1 * G [0, s + 1] [0, y] []) * oneJet [r] [x] [] := by
    intro r s x y
    refine hk.2 _ (slice_first I.cellA I.cellB I.scalarA I.scalarB _ hd s y) (fun α x hα hx => ?_) [r] [x] rfl rfl
    obtain ⟨r, rfl⟩ := one_of hα
    obtain ⟨x, rfl⟩ := one_of hx
    show w [r + 1, s] [x, y] [] + -1 * G [r + 1, s + 1] [x, y] [] = 0
    rw [eG r (s + 1) x y, heq]
    ring
  refine ⟨_, inSpace_add hG (inSpace_prod I.cellA I.cellA I.scalarA I.scalarA hk.1 hQ), fun r s x y => ⟨?_, ?_⟩⟩
  · show G [r + 1, s] [x, y] [] + oneJet [r + 1] [x] [] * Q [s] [y] [] = _
    rw [eG, show (oneJet [r + 1] [x] [] : K) = 0 from if_neg (by simp), zero_mul, add_zero]
  · show G [r, s + 1] [x, y] [] + oneJet [r] [x] [] * Q [s + 1] [y] [] = _
    have e1 : Q [s + 1] [y] [] = w [0, s] [0, y] [] + -1 * G [0, s + 1] [0, y] [] := eQ [s] [y] rfl rfl
    have e2 := hconst r s x y
    rw [e1, mul_comm (oneJet _ _ _), ← e2]
    ring

/-- On the square, with antiderivatives and constants: a function of the sum of the `HCurlElement`s with curl zero is the gradient of a
function of `a ⊗ a`. -/
theorem C110_curl_free (h : IntervalComplex φ a b) (hs : Antiderivatives φ a b) (hk : OnlyConstants φ a) :
    ∃ h₁ h₂, mkHCurl (.tensorProduct [b, a]) = .ok h₁ ∧ mkHCurl (.tensorProduct [a, b]) = .ok h₂ ∧
      ∀ f, InSpace φ (mkEnriched [h₁, h₂]) square [2] f →
        (∀ α x, α.length = 2 → x.length = 2 → curlJet f α x [] = 0) →
        ∃ g, InSpace φ (.tensorProduct [a, a]) square [] g ∧
          ∀ α x z, α.length = 2 → x.length = 2 → InRange z [2] → f α x z = gradJet g α x z := by
  refine ⟨_, _, mkHCurl_two h.formB h.formA rfl (selectHcurl_ba h), mkHCurl_two h.formA h.formB rfl (selectHcurl_ab h),
    fun f hf h0 => ?_⟩
  obtain ⟨f₁, f₂, hf₁, hf₂, hsum⟩ := sum_inv hf
  obtain ⟨u, hu, e₁⟩ := hcurl_inv (w := .tensorProduct [b, a]) (selectHcurl_ba h) (plainEntries_ok (.inl rfl)) hf₁
  obtain ⟨w, hw, e₂⟩ := hcurl_inv (w := .tensorProduct [a, b]) (selectHcurl_ab h) (plainEntries_ok (.inr rfl)) hf₂
  have r0 : InRange [0] [2] := .cons (by decide) .nil
  have r1 : InRange [1] [2] := .cons (by decide) .nil
  have v0 : ∀ r s x y, f [r, s] [x, y] [0] = u [r, s] [x, y] [] := fun r s x y => by
    rw [hsum _ _ _ rfl rfl r0, e₁ _ _ _ rfl rfl r0, e₂ _ _ _ rfl rfl r0]
    exact add_zero _
  have v1 : ∀ r s x y, f [r, s] [x, y] [1] = w [r, s] [x, y] [] := fun r s x y => by
    rw [hsum _ _ _ rfl rfl r1, e₁ _ _ _ rfl rfl r1, e₂ _ _ _ rfl rfl r1]
    exact zero_add _
  obtain ⟨g, hg, eg⟩ := potential h hs hk u w hu hw fun r s x y => by
    have : f [r + 1, s] [x, y] [1] - f [r, s + 1] [x, y] [0] = 0 := h0 [r, s] [x, y] rfl rfl
    rw [← v0, ← v1]
    exact (sub_eq_zero.1 this).symm
  refine ⟨g, hg, fun α x z hα hx hz => ?_⟩
  obtain ⟨r, s, rfl⟩ := two_of hα
  obtain ⟨x, y, rfl⟩ := two_of hx
  rcases range2 hz with rfl | rfl
  · exact (v0 r s x y).trans (eg r s x y).1.symm
  · exact (v1 r s x y).trans (eg r s x y).2.symm

/-- On the square: a function of the sum of the `HDivElement`s with divergence zero is the turned gradient of a function of `a ⊗ a`. -/
theorem C110_divergence_free (h : IntervalComplex φ a b) (hs : Antiderivatives φ a b) (hk : OnlyConstants φ a) :
    ∃ h₁ h₂, mkHDiv (.tensorProduct [a, b]) = .ok h₁ ∧ mkHDiv (.tensorProduct [b, a]) = .ok h₂ ∧
      ∀ f, InSpace φ (mkEnriched [h₁, h₂]) square [2] f →
        (∀ α x, α.length = 2 → x.length = 2 → divJet 2 f α x [] = 0) →
        ∃ g, InSpace φ (.tensorProduct [a, a]) square [] g ∧
          ∀ α x z, α.length = 2 → x.length = 2 → InRange z [2] → f α x z = rotJet g α x z := by
  refine ⟨_, _, mkHDiv_two h.cellA h.cellB h.formA h.formB rfl (selectHdiv_ab h),
    mkHDiv_two h.cellB h.cellA h.formB h.formA rfl (selectHdiv_ba h), fun f hf h0 => ?_⟩
  obtain ⟨f₁, f₂, hf₁, hf₂, hsum⟩ := sum_inv hf
  obtain ⟨w, hw, e₁⟩ := hdiv_inv (w := .tensorProduct [a, b]) (selectHdiv_ab h) (plainEntries_ok (.inl rfl)) hf₁
  obtain ⟨u, hu, e₂⟩ := hdiv_inv (w := .tensorProduct [b, a]) (selectHdiv_ba h) (plainEntries_ok (.inr rfl)) hf₂
  have r0 : InRange [0] [2] := .cons (by decide) .nil
  have r1 : InRange [1] [2] := .cons (by decide) .nil
  have v0 : ∀ r s x y, f [r, s] [x, y] [0] = -w [r, s] [x, y] [] := fun r s x y => by
    rw [hsum _ _ _ rfl rfl r0, e₁ _ _ _ rfl rfl r0, e₂ _ _ _ rfl rfl r0]
    exact add_zero _
  have v1 : ∀ r s x y, f [r, s] [x, y] [1] = u [r, s] [x, y] [] := fun r s x y => by
    rw [hsum _ _ _ rfl rfl r1, e₁ _ _ _ rfl rfl r1, e₂ _ _ _ rfl rfl r1]
    exact zero_add _
  obtain ⟨g, hg, eg⟩ := potential h hs hk _ _ (inSpace_smul (-1) hu) (inSpace_smul (-1) hw) fun r s x y => by
    have : f [r + 1, s] [x, y] [0] + (f [r, s + 1] [x, y] [1] + 0) = 0 := h0 [r, s] [x, y] rfl rfl
    rw [v0, v1, add_zero] at this
    have h2 : u [r, s + 1] [x, y] [] = w [r + 1, s] [x, y] [] := by
      rw [← sub_eq_zero, sub_eq_neg_add]; exact this
    rw [h2]
  refine ⟨g, hg, fun α x z hα hx hz => ?_⟩
  obtain ⟨r, s, rfl⟩ := two_of hα
  obtain ⟨x, y, rfl⟩ := two_of hx
  rcases range2 hz with rfl | rfl
  · show f [r, s] [x, y] [0] = g [r, s + 1] [x, y] []
    rw [v0, (eg r s x y).2]
    ring
  · show f [r, s] [x, y] [1] = -g [r + 1, s] [x, y] []
    rw [v1, (eg r s x y).1]
    ring

end

namespace DeRhamCases

theorem cg_constants : OnlyConstants vals4 (.leaf cg1) := by
  have i1 : ndindex (Elem.leaf cg1).indexShape = [[0], [1]] := by decide +kernel
  refine ⟨⟨fun _ => 1, fun α x z hα hx hz => ?_⟩, ?_⟩
  · obtain ⟨s, rfl⟩ := one_of hx
    cases hz
    match α, hα with
    | [0], _ =>
      show (1 : ℚ) = 1 * (1 - s) + (1 * s + 0)
      ring
    | [1], _ =>
      show (0 : ℚ) = 1 * -1 + (1 * 1 + 0)
      ring
    | [k + 2], _ =>
      show (0 : ℚ) = 1 * 0 + (1 * 0 + 0)
      ring
  · rintro f ⟨c, hc⟩ h0 α x hα hx
    obtain ⟨s, rfl⟩ := one_of hx
    have e0 : f [1] [s] [] = c [0] * -1 + (c [1] * 1 + 0) := hc [1] [s] [] rfl rfl .nil
    have e1 : f [1] [s] [] = 0 := h0 [0] [s] rfl rfl
    have e2 : f [0] [0] [] = c [0] * (1 - 0) + (c [1] * 0 + 0) := hc [0] [0] [] rfl rfl .nil
    have e3 : c [1] = c [0] := by linarith
    match α, hα with
    | [0], _ =>
      have e4 : f [0] [s] [] = c [0] * (1 - s) + (c [1] * s + 0) := hc [0] [s] [] rfl rfl .nil
      show _ = _ * 1
      rw [e4, e2, e3]
      ring
    | [1], _ =>
      show _ = _ * 0
      rw [e1, mul_zero]
    | [k + 2], _ =>
      have e4 : f [k + 2] [s] [] = c [0] * 0 + (c [1] * 0 + 0) := hc [k + 2] [s] [] rfl rfl .nil
      show _ = _ * 0
      rw [e4]
      ring

example := C110_curl_free cg_dg4 cg_dg_onto cg_constants
example := C110_divergence_free cg_dg4 cg_dg_onto cg_constants

end DeRhamCases
end FInAT.Props
