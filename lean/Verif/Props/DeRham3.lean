import Verif.Props.DeRham

/-!
# C110 in three dimensions: extruded cells
-/

namespace FInAT.Props

open FInAT Spec

section
variable {K : Type} [CommRing K] {φ : LeafVals K} {H : Cell} {a b p n d : Elem}

theorem prism_dim (hH : H.spatialDim = 2) : (prism H).spatialDim = 3 := by
  simp only [prism, Cell.spatialDim, Cell.spatialDimL, hH]

theorem three {α : List Nat} (h : α.length = 3) : ∃ r s t, α = [r, s, t] := by
  match α, h with
  | [r, s, t], _ => exact ⟨r, s, t, rfl⟩

/-- The gradient along the plane cell. -/
theorem plane_gradient (P : PlaneComplex φ H p n d) {v : Elem} (cv : v.cell = .ok (.simplex 1)) (sv : v.valueShape = .ok [])
    (f : Jet K) (hf : InSpace φ (.tensorProduct [p, v]) (prism H) [] f) :
    InSpace φ (.tensorProduct [n, v]) (prism H) [2] (gradJet f) := by
  refine maps_of_basis gradJet (fun f g hfg α x z hα hx _ => hfg _ x [] (by rw [length_bump]; exact hα) hx .nil)
    (fun _ _ _ _ _ _ => rfl) (fun j hj => ?_) f hf
  rw [indexShape_two] at hj
  have hsp := (show InB j _ from hj).split
  rw [← List.take_append_drop p.indexShape.length j]
  refine inSpace_congr (inSpace_prod P.cellN cv P.vectorN sv (P.gradient _ (inSpace_basis p H [] hsp.1))
    (inSpace_basis v (.simplex 1) [] hsp.2)) fun α x z hα hx hz => ?_
  have := basis_two (φ := φ) P.cellP cv P.scalarP sv hsp.1 hsp.2 (bump (z.headD 0) α) x [] (by rw [length_bump]; exact hα) hx .nil
  refine this.trans ?_
  rw [prism_dim P.dim] at hα
  obtain ⟨r, s, t, rfl⟩ := three hα
  rw [P.dim]
  rcases range2 hz with rfl | rfl <;> rfl

/-- The curl along the plane cell. -/
theorem plane_curl (P : PlaneComplex φ H p n d) {v : Elem} (cv : v.cell = .ok (.simplex 1)) (sv : v.valueShape = .ok [])
    (f : Jet K) (hf : InSpace φ (.tensorProduct [n, v]) (prism H) [2] f) :
    InSpace φ (.tensorProduct [d, v]) (prism H) [] (curlJet f) := by
  have r0 : InRange [0] [2] := .cons (by decide) .nil
  have r1 : InRange [1] [2] := .cons (by decide) .nil
  refine maps_of_basis curlJet (fun f g hfg α x z hα hx _ => ?_) (fun l c F α x z => ?_) (fun j hj => ?_) f hf
  · show f _ _ _ - f _ _ _ = g _ _ _ - g _ _ _
    rw [hfg (bump 0 α) x [1] (by rw [length_bump]; exact hα) hx r1, hfg (bump 1 α) x [0] (by rw [length_bump]; exact hα) hx r0]
  · show lsum _ _ - lsum _ _ = _
    rw [sub_eq_add_neg, ← lsum_neg, ← lsum_add]
    refine lsum_congr fun j _ => ?_
    show _ = c j * (F j (bump 0 α) x [1] - F j (bump 1 α) x [0])
    ring
  rw [indexShape_two] at hj
  have hsp := (show InB j _ from hj).split
  rw [← List.take_append_drop n.indexShape.length j]
  refine inSpace_congr (inSpace_prod P.cellD cv P.scalarD sv (P.curl _ (inSpace_basis n H [2] hsp.1))
    (inSpace_basis v (.simplex 1) [] hsp.2)) fun α x z hα hx hz => ?_
  have h0 := basis_two (φ := φ) P.cellN cv P.vectorN sv hsp.1 hsp.2 (bump 0 α) x [1] (by rw [length_bump]; exact hα) hx r1
  have h1 := basis_two (φ := φ) P.cellN cv P.vectorN sv hsp.1 hsp.2 (bump 1 α) x [0] (by rw [length_bump]; exact hα) hx r0
  refine (congrArg₂ (· - ·) h0 h1).trans ?_
  rw [prism_dim P.dim] at hα
  obtain ⟨r, s, t, rfl⟩ := three hα
  cases hz
  rw [P.dim]
  exact (sub_mul _ _ _).symm

/-- The derivative along the interval, of all components. -/
def upJet (f : Jet K) : Jet K := fun α x z => f (bump 2 α) x z

theorem plane_up (hH : H.spatialDim = 2) (I : IntervalComplex φ a b) {e : Elem} {vs : List Nat} (ce : e.cell = .ok H)
    (ve : e.valueShape = .ok vs) (f : Jet K) (hf : InSpace φ (.tensorProduct [e, a]) (prism H) (vs ++ []) f) :
    InSpace φ (.tensorProduct [e, b]) (prism H) (vs ++ []) (upJet f) := by
  refine maps_of_basis upJet (fun f g hfg α x z hα hx hz => hfg _ x z (by rw [length_bump]; exact hα) hx hz)
    (fun _ _ _ _ _ _ => rfl) (fun j hj => ?_) f hf
  rw [indexShape_two] at hj
  have hsp := (show InB j _ from hj).split
  rw [← List.take_append_drop e.indexShape.length j]
  refine inSpace_congr (inSpace_prod ce I.cellB ve I.scalarB (inSpace_basis e H vs hsp.1)
    (I.derives _ (inSpace_basis a (.simplex 1) [] hsp.2))) fun α x z hα hx hz => ?_
  have := basis_two (φ := φ) ce I.cellA ve I.scalarA hsp.1 hsp.2 (bump 2 α) x z (by rw [length_bump]; exact hα) hx hz
  refine this.trans ?_
  have hz2 : InB (z.drop vs.length) [] := (show InB z _ from hz).split.2
  have hz3 : z.drop vs.length = [] := List.length_eq_zero_iff.1 (InB.length hz2)
  rw [prism_dim hH] at hα
  obtain ⟨r, s, t, rfl⟩ := three hα
  rw [hH]
  simp only [prodJet, hz3]
  rfl

theorem mapping_vector {e₁ e₂ : Elem} (h₁ : e₁.mapping = some .covariantPiola) (h₂ : e₂.mapping = some .affine) :
    (Elem.tensorProduct [e₁, e₂]).mapping = some .covariantPiola := by
  simp only [Elem.mapping, Elem.mappingL, h₁, h₂]
  rfl

theorem cell_prism {e₁ e₂ : Elem} (h₁ : e₁.cell = .ok H) (h₂ : e₂.cell = .ok (.simplex 1)) :
    (Elem.tensorProduct [e₁, e₂]).cell = .ok (prism H) := by
  simp only [Elem.cell, cell_two h₁ h₂, bind, Except.bind, pure, Except.pure, prism]

theorem selectHdiv_nb (P : PlaneComplex φ H p n d) (I : IntervalComplex φ a b) :
    selectHdiv [n, b] = .ok [.entry false [1], .entry true [0], .zero] := by
  simp only [selectHdiv, I.cellB, P.formN, I.formB, mapping_vector P.mapN I.mapB, bind, Except.bind]
  rfl

theorem selectHdiv_da (P : PlaneComplex φ H p n d) (I : IntervalComplex φ a b) :
    selectHdiv [d, a] = .ok [.zero, .zero, .entry false []] := by
  simp only [selectHdiv, I.cellA, P.formD, I.formA, bind, Except.bind]
  rfl

theorem selectHcurl_na (P : PlaneComplex φ H p n d) (I : IntervalComplex φ a b) :
    selectHcurl [n, a] = .ok [.entry false [0], .entry false [1], .zero] := by
  simp only [selectHcurl, I.cellA, P.formN, I.formA, cell_prism P.cellN I.cellA, mapping_vector P.mapN I.mapA, bind, Except.bind]
  rfl

theorem selectHcurl_pb (P : PlaneComplex φ H p n d) (I : IntervalComplex φ a b) :
    selectHcurl [p, b] = .ok [.zero, .zero, .entry false []] := by
  simp only [selectHcurl, I.cellB, P.formP, I.formB, cell_prism P.cellP I.cellB, mapping_two P.mapP I.mapB, bind, Except.bind,
    prism_dim P.dim]
  rfl

theorem mkHDiv_prism {e₁ e₂ : Elem} {k₁ k₂ : Nat} {comps : List Comp} (hH : H.spatialDim = 2) (c₁ : e₁.cell = .ok H)
    (c₂ : e₂.cell = .ok (.simplex 1)) (h₁ : e₁.formdegree = .ok (some k₁)) (h₂ : e₂.formdegree = .ok (some k₂))
    (hk : k₁ + k₂ = 2) (hs : selectHdiv [e₁, e₂] = .ok comps) :
    mkHDiv (.tensorProduct [e₁, e₂]) = .ok (.hdiv (.tensorProduct [e₁, e₂])) := by
  have hc : ([some k₁, some k₂] : List (Option Nat)).contains none = false := rfl
  have hf : ([some k₁, some k₂] : List (Option Nat)).filterMap id = [k₁, k₂] := rfl
  simp only [mkHDiv, formdegrees_two h₁ h₂, cell_prism c₁ c₂, hs, bind, Except.bind, hc, hf, prism_dim hH]
  simp [hk, pure, Except.pure]

theorem vectorEntries_ok {s t : Bool} {i j : Nat} (hi : i < 2) (hj : j < 2) :
    ∀ neg ix, Comp.entry neg ix ∈ [Comp.entry s [i], .entry t [j], .zero] → InRange ix [2] := by
  intro neg ix hm
  simp at hm
  rcases hm with ⟨_, rfl⟩ | ⟨_, rfl⟩
  · exact .cons hi .nil
  · exact .cons hj .nil

theorem topEntries_ok : ∀ neg ix, Comp.entry neg ix ∈ [Comp.zero, .zero, .entry false []] → InRange ix ([] : List Nat) := by
  intro neg ix hm
  simp at hm
  rw [hm.2]
  exact .nil

theorem range3 {z : List Nat} (h : InRange z [3]) : z = [0] ∨ z = [1] ∨ z = [2] := by
  cases h with
  | @cons k _ t _ hk ht =>
  cases ht
  match k, hk with
  | 0, _ => exact .inl rfl
  | 1, _ => exact .inr (.inl rfl)
  | 2, _ => exact .inr (.inr rfl)

/-- On prisms: the gradient of every function of `p ⊗ a` is a function of the sum of `HCurlElement` of `n ⊗ a` and `p ⊗ b`. -/
theorem C110_prism_gradient (P : PlaneComplex φ H p n d) (I : IntervalComplex φ a b) :
    ∃ h₁ h₂, mkHCurl (.tensorProduct [n, a]) = .ok h₁ ∧ mkHCurl (.tensorProduct [p, b]) = .ok h₂ ∧
      ∀ f, InSpace φ (.tensorProduct [p, a]) (prism H) [] f → InSpace φ (mkEnriched [h₁, h₂]) (prism H) [3] (gradJet f) := by
  refine ⟨_, _, mkHCurl_two P.formN I.formA rfl (selectHcurl_na P I), mkHCurl_two P.formP I.formB rfl (selectHcurl_pb P I),
    fun f hf => ?_⟩
  have d₁ := plane_gradient P I.cellA I.scalarA f hf
  have d₂ := plane_up (vs := []) P.dim I P.cellP P.scalarP f hf
  refine inSpace_congr (inSpace_sum (inSpace_hcurl (ws := [3]) (w := .tensorProduct [n, a]) (selectHcurl_na P I)
    (vectorEntries_ok (by decide) (by decide)) d₁)
    (inSpace_hcurl (w := .tensorProduct [p, b]) (selectHcurl_pb P I) topEntries_ok d₂)) fun α x z hα hx hz => ?_
  rcases range3 hz with rfl | rfl | rfl
  · exact (add_zero (f (bump 0 α) x [])).symm
  · exact (add_zero (f (bump 1 α) x [])).symm
  · exact (zero_add (f (bump 2 α) x [])).symm

/-- On prisms: the curl of every function of the sum of `HCurlElement` of `n ⊗ a` and `p ⊗ b` is a function of the sum of
`HDivElement` of `n ⊗ b` and `d ⊗ a`. -/
theorem C110_prism_curl (P : PlaneComplex φ H p n d) (I : IntervalComplex φ a b) :
    ∃ h₁ h₂ q₁ q₂, mkHCurl (.tensorProduct [n, a]) = .ok h₁ ∧ mkHCurl (.tensorProduct [p, b]) = .ok h₂ ∧
      mkHDiv (.tensorProduct [n, b]) = .ok q₁ ∧ mkHDiv (.tensorProduct [d, a]) = .ok q₂ ∧
      ∀ f, InSpace φ (mkEnriched [h₁, h₂]) (prism H) [3] f → InSpace φ (mkEnriched [q₁, q₂]) (prism H) [3] (curl3Jet f) := by
  refine ⟨_, _, _, _, mkHCurl_two P.formN I.formA rfl (selectHcurl_na P I), mkHCurl_two P.formP I.formB rfl (selectHcurl_pb P I),
    mkHDiv_prism P.dim P.cellN I.cellB P.formN I.formB rfl (selectHdiv_nb P I),
    mkHDiv_prism P.dim P.cellD I.cellA P.formD I.formA rfl (selectHdiv_da P I), fun f hf => ?_⟩
  obtain ⟨f₁, f₂, hf₁, hf₂, hsum⟩ := sum_inv hf
  obtain ⟨g, hg, e₁⟩ := hcurl_inv (w := .tensorProduct [n, a]) (selectHcurl_na P I)
    (vectorEntries_ok (by decide) (by decide)) hf₁
  obtain ⟨v, hv, e₂⟩ := hcurl_inv (w := .tensorProduct [p, b]) (selectHcurl_pb P I) topEntries_ok hf₂
  have d₁ := plane_gradient P I.cellB I.scalarB v hv
  have d₂ := inSpace_smul (-1) (plane_up (vs := [2]) P.dim I P.cellN P.vectorN g hg)
  have d₃ := plane_curl P I.cellA I.scalarA g hg
  refine inSpace_congr (inSpace_sum (inSpace_hdiv (ws := [3]) (w := .tensorProduct [n, b]) (selectHdiv_nb P I)
    (vectorEntries_ok (by decide) (by decide)) (inSpace_add d₁ d₂))
    (inSpace_hdiv (w := .tensorProduct [d, a]) (selectHdiv_da P I) topEntries_ok d₃)) fun α x z hα hx hz => ?_
  have l : ∀ k, (bump k α).length = (prism H).spatialDim := fun k => by rw [length_bump]; exact hα
  have r0 : InRange [0] [3] := .cons (by decide) .nil
  have r1 : InRange [1] [3] := .cons (by decide) .nil
  have r2 : InRange [2] [3] := .cons (by decide) .nil
  have v0 : ∀ k, f (bump k α) x [0] = g (bump k α) x [0] + 0 := fun k => by
    rw [hsum _ x _ (l k) hx r0, e₁ _ x _ (l k) hx r0, e₂ _ x _ (l k) hx r0]; rfl
  have v1 : ∀ k, f (bump k α) x [1] = g (bump k α) x [1] + 0 := fun k => by
    rw [hsum _ x _ (l k) hx r1, e₁ _ x _ (l k) hx r1, e₂ _ x _ (l k) hx r1]; rfl
  have v2 : ∀ k, f (bump k α) x [2] = 0 + v (bump k α) x [] := fun k => by
    rw [hsum _ x _ (l k) hx r2, e₁ _ x _ (l k) hx r2, e₂ _ x _ (l k) hx r2]; rfl
  rcases range3 hz with rfl | rfl | rfl
  · show f (bump 1 α) x [2] - f (bump 2 α) x [1] = (v (bump 1 α) x [] + -1 * g (bump 2 α) x [1]) + 0
    rw [v2, v1]
    ring
  · show f (bump 2 α) x [0] - f (bump 0 α) x [2] = -(v (bump 0 α) x [] + -1 * g (bump 2 α) x [0]) + 0
    rw [v2, v0]
    ring
  · show f (bump 0 α) x [1] - f (bump 1 α) x [0] = 0 + (g (bump 0 α) x [1] - g (bump 1 α) x [0])
    rw [v1, v0]
    ring

/-- On prisms: the divergence of every function of the sum of `HDivElement` of `n ⊗ b` and `d ⊗ a` is a function of `d ⊗ b`. -/
theorem C110_prism_divergence (P : PlaneComplex φ H p n d) (I : IntervalComplex φ a b) :
    ∃ q₁ q₂, mkHDiv (.tensorProduct [n, b]) = .ok q₁ ∧ mkHDiv (.tensorProduct [d, a]) = .ok q₂ ∧
      ∀ f, InSpace φ (mkEnriched [q₁, q₂]) (prism H) [3] f → InSpace φ (.tensorProduct [d, b]) (prism H) [] (divJet 3 f) := by
  refine ⟨_, _, mkHDiv_prism P.dim P.cellN I.cellB P.formN I.formB rfl (selectHdiv_nb P I),
    mkHDiv_prism P.dim P.cellD I.cellA P.formD I.formA rfl (selectHdiv_da P I), fun f hf => ?_⟩
  obtain ⟨f₁, f₂, hf₁, hf₂, hsum⟩ := sum_inv hf
  obtain ⟨g, hg, e₁⟩ := hdiv_inv (w := .tensorProduct [n, b]) (selectHdiv_nb P I)
    (vectorEntries_ok (by decide) (by decide)) hf₁
  obtain ⟨v, hv, e₂⟩ := hdiv_inv (w := .tensorProduct [d, a]) (selectHdiv_da P I) topEntries_ok hf₂
  have d₁ := plane_curl P I.cellB I.scalarB g hg
  have d₂ := plane_up (vs := []) P.dim I P.cellD P.scalarD v hv
  refine inSpace_congr (inSpace_add d₁ d₂) fun α x z hα hx hz => ?_
  cases hz
  have l : ∀ k, (bump k α).length = (prism H).spatialDim := fun k => by rw [length_bump]; exact hα
  have r0 : InRange [0] [3] := .cons (by decide) .nil
  have r1 : InRange [1] [3] := .cons (by decide) .nil
  have r2 : InRange [2] [3] := .cons (by decide) .nil
  have v0 : f (bump 0 α) x [0] = g (bump 0 α) x [1] + 0 := by
    rw [hsum _ x _ (l 0) hx r0, e₁ _ x _ (l 0) hx r0, e₂ _ x _ (l 0) hx r0]; rfl
  have v1 : f (bump 1 α) x [1] = -g (bump 1 α) x [0] + 0 := by
    rw [hsum _ x _ (l 1) hx r1, e₁ _ x _ (l 1) hx r1, e₂ _ x _ (l 1) hx r1]; rfl
  have v2 : f (bump 2 α) x [2] = 0 + v (bump 2 α) x [] := by
    rw [hsum _ x _ (l 2) hx r2, e₁ _ x _ (l 2) hx r2, e₂ _ x _ (l 2) hx r2]; rfl
  have hs : divJet 3 f α x [] = f (bump 0 α) x [0] + (f (bump 1 α) x [1] + (f (bump 2 α) x [2] + 0)) := rfl
  rw [hs, v0, v1, v2]
  show _ = (g (bump 0 α) x [1] - g (bump 1 α) x [0]) + v (bump 2 α) x []
  ring

end

/-! ### The hypotheses hold for linear, lowest order Nedelec and constant elements on the triangle -/

namespace DeRhamCases

/-- Linear elements on the triangle. -/
def triP : Leaf := ⟨10, .fiat, .simplex 2, some 0, [], some .affine, 1, [0, 1, 2],
  [(.int 0, [(0, [0]), (1, [1]), (2, [2])]), (.int 1, [(0, []), (1, []), (2, [])]), (.int 2, [(0, [])])]⟩

/-- Nedelec elements of the first kind and lowest order on the triangle. -/
def triN : Leaf := ⟨11, .fiat, .simplex 2, some 1, [2], some .covariantPiola, 1, [0, 1, 2],
  [(.int 0, [(0, []), (1, []), (2, [])]), (.int 1, [(0, [0]), (1, [1]), (2, [2])]), (.int 2, [(0, [])])]⟩

/-- Constants on the triangle. -/
def triD : Leaf := ⟨12, .dg, .simplex 2, some 2, [], some .affine, 0, [0],
  [(.int 0, [(0, []), (1, []), (2, [])]), (.int 1, [(0, []), (1, []), (2, [])]), (.int 2, [(0, [0])])]⟩

/-- Linear functions and their derivatives. -/
def linVals (x y : ℚ) : List Nat → Nat → ℚ
  | [0, 0], 0 => 1 - x - y
  | [0, 0], 1 => x
  | [0, 0], 2 => y
  | [1, 0], 0 => -1
  | [1, 0], 1 => 1
  | [0, 1], 0 => -1
  | [0, 1], 2 => 1
  | _, _ => 0

/-- The functions `(-y, x)`, `(y, 1 - x)`, `(1 - y, x)` and their derivatives. -/
def nedVals (x y : ℚ) : List Nat → Nat → Nat → ℚ
  | [0, 0], 0, 0 => -y
  | [0, 0], 0, 1 => x
  | [0, 0], 1, 0 => y
  | [0, 0], 1, 1 => 1 - x
  | [0, 0], 2, 0 => 1 - y
  | [0, 0], 2, 1 => x
  | [1, 0], 0, 1 => 1
  | [1, 0], 1, 1 => -1
  | [1, 0], 2, 1 => 1
  | [0, 1], 0, 0 => -1
  | [0, 1], 1, 0 => 1
  | [0, 1], 2, 0 => -1
  | _, _, _ => 0

/-- The basis functions of these and of `CG1` and `DG0` on the interval, and their derivatives. -/
def vals3 : LeafVals ℚ where
  leaf l α e x i z := match l.id with
    | 10 => linVals (x.headD 0) (x.getD 1 0) α (i.headD 0)
    | 11 => nedVals (x.headD 0) (x.getD 1 0) α (i.headD 0) (z.headD 0)
    | 12 => if α = [0, 0] then 1 else 0
    | _ => vals.leaf l α e x i z
  quad _ _ _ _ _ := 0

theorem cg_dg3 : IntervalComplex vals3 (.leaf cg1) (.leaf dg0) where
  cellA := rfl
  cellB := rfl
  scalarA := rfl
  scalarB := rfl
  formA := rfl
  formB := rfl
  mapA := rfl
  mapB := rfl
  derives := cg_dg.derives

theorem two {α : List Nat} (h : α.length = 2) : ∃ r s, α = [r, s] := by
  match α, h with
  | [r, s], _ => exact ⟨r, s, rfl⟩

theorem tri : PlaneComplex vals3 (.simplex 2) (.leaf triP) (.leaf triN) (.leaf triD) where
  dim := rfl
  cellP := rfl
  cellN := rfl
  cellD := rfl
  scalarP := rfl
  vectorN := rfl
  scalarD := rfl
  formP := rfl
  formN := rfl
  formD := rfl
  mapP := rfl
  mapN := rfl
  gradient := by
    rintro f ⟨c, hc⟩
    refine ⟨fun j => match j.headD 0 with | 0 => c [2] - c [1] | 1 => c [2] - c [0] | _ => c [1] - c [0],
      fun α x z hα hx hz => ?_⟩
    refine Eq.trans (hc (bump (z.headD 0) α) x [] (by rw [length_bump]; exact hα) hx .nil) ?_
    obtain ⟨r, s, rfl⟩ := two hα
    rcases range2 hz with rfl | rfl
    · show c [0] * linVals (x.headD 0) (x.getD 1 0) [r + 1, s] 0 + (c [1] * linVals (x.headD 0) (x.getD 1 0) [r + 1, s] 1 +
        (c [2] * linVals (x.headD 0) (x.getD 1 0) [r + 1, s] 2 + 0)) =
        (c [2] - c [1]) * nedVals (x.headD 0) (x.getD 1 0) [r, s] 0 0 + ((c [2] - c [0]) *
        nedVals (x.headD 0) (x.getD 1 0) [r, s] 1 0 + ((c [1] - c [0]) * nedVals (x.headD 0) (x.getD 1 0) [r, s] 2 0 + 0))
      rcases r with _ | _ | r <;> rcases s with _ | _ | s <;> simp [linVals, nedVals] <;> ring
    · show c [0] * linVals (x.headD 0) (x.getD 1 0) [r, s + 1] 0 + (c [1] * linVals (x.headD 0) (x.getD 1 0) [r, s + 1] 1 +
        (c [2] * linVals (x.headD 0) (x.getD 1 0) [r, s + 1] 2 + 0)) =
        (c [2] - c [1]) * nedVals (x.headD 0) (x.getD 1 0) [r, s] 0 1 + ((c [2] - c [0]) *
        nedVals (x.headD 0) (x.getD 1 0) [r, s] 1 1 + ((c [1] - c [0]) * nedVals (x.headD 0) (x.getD 1 0) [r, s] 2 1 + 0))
      rcases r with _ | _ | r <;> rcases s with _ | _ | s <;> simp [linVals, nedVals] <;> ring
  curl := by
    rintro f ⟨c, hc⟩
    refine ⟨fun _ => 2 * (c [0] - c [1] + c [2]), fun α x z hα hx hz => ?_⟩
    have h0 := hc (bump 0 α) x [1] (by rw [length_bump]; exact hα) hx (.cons (by decide) .nil)
    have h1 := hc (bump 1 α) x [0] (by rw [length_bump]; exact hα) hx (.cons (by decide) .nil)
    refine Eq.trans (congrArg₂ (· - ·) h0 h1) ?_
    obtain ⟨r, s, rfl⟩ := two hα
    show (c [0] * nedVals (x.headD 0) (x.getD 1 0) [r + 1, s] 0 1 + (c [1] * nedVals (x.headD 0) (x.getD 1 0) [r + 1, s] 1 1 +
        (c [2] * nedVals (x.headD 0) (x.getD 1 0) [r + 1, s] 2 1 + 0))) -
      (c [0] * nedVals (x.headD 0) (x.getD 1 0) [r, s + 1] 0 0 + (c [1] * nedVals (x.headD 0) (x.getD 1 0) [r, s + 1] 1 0 +
        (c [2] * nedVals (x.headD 0) (x.getD 1 0) [r, s + 1] 2 0 + 0))) =
      2 * (c [0] - c [1] + c [2]) * (if [r, s] = [0, 0] then 1 else 0) + 0
    rcases r with _ | _ | r <;> rcases s with _ | _ | s <;> simp [nedVals] <;> ring

example := C110_prism_gradient tri cg_dg3
example := C110_prism_curl tri cg_dg3
example := C110_prism_divergence tri cg_dg3

/-- A curl and a divergence on the prism that are not zero. -/
example : ∃ h₁ h₂ q₁ q₂, mkHCurl (.tensorProduct [.leaf triN, .leaf cg1]) = .ok h₁ ∧
    mkHCurl (.tensorProduct [.leaf triP, .leaf dg0]) = .ok h₂ ∧ mkHDiv (.tensorProduct [.leaf triN, .leaf dg0]) = .ok q₁ ∧
    mkHDiv (.tensorProduct [.leaf triD, .leaf cg1]) = .ok q₂ ∧
    curl3Jet (basisJet vals3 (mkEnriched [h₁, h₂]) (prism (.simplex 2)) [0]) [0, 0, 0] [1/3, 1/4, 1/5] [2] = 8/5 ∧
    divJet 3 (basisJet vals3 (mkEnriched [q₁, q₂]) (prism (.simplex 2)) [0]) [0, 0, 0] [1/3, 1/4, 1/5] [] = 2 :=
  ⟨_, _, _, _, rfl, rfl, rfl, rfl, by decide +kernel, by decide +kernel⟩

end DeRhamCases
end FInAT.Props
