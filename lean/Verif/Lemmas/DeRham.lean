import Verif.Spec.DeRham
import Verif.Lemmas.Independent

/-!
# Spaces of functions of products, sums and wrapped elements
-/

namespace FInAT

open Spec Elem

section
variable {K : Type} [CommRing K] {φ : LeafVals K}

theorem inSpace_eq (e : Elem) (c : Cell) (vs : List Nat) (f : Jet K) : InSpace φ e c vs f ↔
    ∃ a : List Nat → K, ∀ α x z, α.length = c.spatialDim → x.length = c.spatialDim → InRange z vs →
      f α x z = lsum (ndindex e.indexShape) fun j => a j * basisValue φ e α (c.dimension, 0) x j z := Iff.rfl

theorem inSpace_congr {e : Elem} {c : Cell} {vs : List Nat} {f g : Jet K} (h : InSpace φ e c vs g)
    (hfg : ∀ α x z, α.length = c.spatialDim → x.length = c.spatialDim → InRange z vs → f α x z = g α x z) :
    InSpace φ e c vs f := by
  obtain ⟨a, h⟩ := h
  exact ⟨a, fun α x z hα hx hz => (hfg α x z hα hx hz).trans (h α x z hα hx hz)⟩

theorem inSpace_zero (e : Elem) (c : Cell) (vs : List Nat) : InSpace φ e c vs fun _ _ _ => (0 : K) :=
  (inSpace_eq ..).2 ⟨fun _ => 0, fun α x z _ _ _ => (lsum_zero fun j _ => zero_mul _).symm⟩

theorem inSpace_add {e : Elem} {c : Cell} {vs : List Nat} {f g : Jet K} (hf : InSpace φ e c vs f) (hg : InSpace φ e c vs g) :
    InSpace φ e c vs fun α x z => f α x z + g α x z := by
  rw [inSpace_eq] at *
  obtain ⟨a, ha⟩ := hf
  obtain ⟨b, hb⟩ := hg
  refine ⟨fun j => a j + b j, fun α x z hα hx hz => ?_⟩
  rw [ha α x z hα hx hz, hb α x z hα hx hz, ← lsum_add]
  exact lsum_congr fun j _ => by ring

theorem inSpace_smul {e : Elem} {c : Cell} {vs : List Nat} {f : Jet K} (s : K) (hf : InSpace φ e c vs f) :
    InSpace φ e c vs fun α x z => s * f α x z := by
  rw [inSpace_eq] at *
  obtain ⟨a, ha⟩ := hf
  refine ⟨fun j => s * a j, fun α x z hα hx hz => ?_⟩
  rw [ha α x z hα hx hz, ← lsum_mul_left]
  exact lsum_congr fun j _ => by ring

theorem inSpace_lsum {ι : Type} {e : Elem} {c : Cell} {vs : List Nat} (a : ι → K) (F : ι → Jet K) : ∀ l : List ι,
    (∀ j ∈ l, InSpace φ e c vs (F j)) → InSpace φ e c vs fun α x z => lsum l fun j => a j * F j α x z
  | [], _ => by simpa using inSpace_zero e c vs
  | j :: l, h => by
    have h1 := inSpace_smul (a j) (h j List.mem_cons_self)
    have h2 := inSpace_lsum a F l fun i hi => h i (List.mem_cons_of_mem _ hi)
    exact inSpace_congr (inSpace_add h1 h2) fun α x z _ _ _ => lsum_cons ..

/-- The basis functions of an element. -/
def basisJet (φ : LeafVals K) (e : Elem) (c : Cell) (j : List Nat) : Jet K := fun α x z => basisValue φ e α (c.dimension, 0) x j z

theorem inSpace_basis (e : Elem) (c : Cell) (vs : List Nat) {j : List Nat} (hj : InRange j e.indexShape) :
    InSpace φ e c vs (basisJet φ e c j) := by
  rw [inSpace_eq]
  refine ⟨fun i => if j = i then 1 else 0, fun α x z _ _ _ => ?_⟩
  rw [lsum_congr (g := fun i => if j = i then basisValue φ e α (c.dimension, 0) x i z else 0) (fun i _ => by
    show (if j = i then (1 : K) else 0) * _ = _
    split_ifs
    · rw [one_mul]
    · rw [zero_mul])]
  exact (lsum_delta (nodup_ndindex _) (mem_ndindex.2 hj) fun i => basisValue φ e α (c.dimension, 0) x i z).symm

/-- An operator that is linear and looks at valid derivatives and components only maps into a space if the images of the basis
functions are in it. -/
theorem maps_of_basis {e q : Elem} {c cq : Cell} {vs ws : List Nat} (op : Jet K → Jet K)
    (hcongr : ∀ f g : Jet K, (∀ α x z, α.length = c.spatialDim → x.length = c.spatialDim → InRange z vs → f α x z = g α x z) →
      ∀ α x z, α.length = cq.spatialDim → x.length = cq.spatialDim → InRange z ws → op f α x z = op g α x z)
    (hlin : ∀ (l : List (List Nat)) (a : List Nat → K) (F : List Nat → Jet K) α x z,
      op (fun α x z => lsum l fun j => a j * F j α x z) α x z = lsum l fun j => a j * op (F j) α x z)
    (h : ∀ j, InRange j e.indexShape → InSpace φ q cq ws (op (basisJet φ e c j))) (f : Jet K) (hf : InSpace φ e c vs f) :
    InSpace φ q cq ws (op f) := by
  obtain ⟨a, ha⟩ := (inSpace_eq ..).1 hf
  have h1 := inSpace_lsum a (fun j => op (basisJet φ e c j)) (ndindex e.indexShape) fun j hj => h j (mem_ndindex.1 hj)
  refine inSpace_congr h1 fun α x z hα hx hz => ?_
  rw [hcongr f (fun α x z => lsum (ndindex e.indexShape) fun j => a j * basisJet φ e c j α x z) ha α x z hα hx hz, hlin]

/-! ### Products -/

/-- The product of functions of separate variables. -/
def prodJet (d m : Nat) (f g : Jet K) : Jet K := fun α x z =>
  f (α.take d) (x.take d) (z.take m) * g (α.drop d) (x.drop d) (z.drop m)

theorem cell_two {e₁ e₂ : Elem} {c₁ c₂ : Cell} (h₁ : e₁.cell = .ok c₁) (h₂ : e₂.cell = .ok c₂) :
    Elem.cellL [e₁, e₂] = .ok [c₁, c₂] := by
  simp only [Elem.cellL, h₁, h₂, bind, Except.bind, pure, Except.pure]

theorem basis_two {e₁ e₂ : Elem} {c₁ c₂ : Cell} {vs₁ vs₂ : List Nat} (h₁ : e₁.cell = .ok c₁) (h₂ : e₂.cell = .ok c₂)
    (hv₁ : e₁.valueShape = .ok vs₁) (hv₂ : e₂.valueShape = .ok vs₂) {j₁ j₂ : List Nat} (hj₁ : InRange j₁ e₁.indexShape)
    (hj₂ : InRange j₂ e₂.indexShape) (α : List Nat) (x : List K) (z : List Nat)
    (hα : α.length = (Cell.prod [c₁, c₂]).spatialDim) (hx : x.length = (Cell.prod [c₁, c₂]).spatialDim)
    (hz : InRange z (vs₁ ++ vs₂)) :
    basisValue φ (.tensorProduct [e₁, e₂]) α ((Cell.prod [c₁, c₂]).dimension, 0) x (j₁ ++ j₂) z =
      prodJet c₁.spatialDim vs₁.length (basisJet φ e₁ c₁ j₁) (basisJet φ e₂ c₂ j₂) α x z := by
  have hl₁ : j₁.length = e₁.indexShape.length := InB.length hj₁
  have hl₂ : j₂.length = e₂.indexShape.length := InB.length hj₂
  have hz : InB z _ := hz
  have hzl : z.length = vs₁.length + vs₂.length := by rw [InB.length hz, List.length_append]
  simp only [Cell.spatialDim, Cell.spatialDimL, Nat.add_zero] at hα hx
  simp only [basisValue, factorEnts_cell (cell_two h₁ h₂), List.map_cons, List.map_nil, prodValue, mul_one, sdim_eq h₁,
    sdim_eq h₂, Cell.total_dimension, vshape_eq hv₁, vshape_eq hv₂, List.take_left' hl₁, List.drop_left' hl₁, prodJet, basisJet]
  rw [List.take_of_length_le (by rw [List.length_drop]; omega : (α.drop c₁.spatialDim).length ≤ c₂.spatialDim),
    List.take_of_length_le (by rw [List.length_drop]; omega : (x.drop c₁.spatialDim).length ≤ c₂.spatialDim),
    List.take_of_length_le (by omega : j₂.length ≤ e₂.indexShape.length),
    List.take_of_length_le (by rw [List.length_drop]; omega : (z.drop vs₁.length).length ≤ vs₂.length)]

theorem inSpace_prod {e₁ e₂ : Elem} {c₁ c₂ : Cell} {vs₁ vs₂ : List Nat} {f g : Jet K} (h₁ : e₁.cell = .ok c₁)
    (h₂ : e₂.cell = .ok c₂) (hv₁ : e₁.valueShape = .ok vs₁) (hv₂ : e₂.valueShape = .ok vs₂) (hf : InSpace φ e₁ c₁ vs₁ f)
    (hg : InSpace φ e₂ c₂ vs₂ g) :
    InSpace φ (.tensorProduct [e₁, e₂]) (.prod [c₁, c₂]) (vs₁ ++ vs₂) (prodJet c₁.spatialDim vs₁.length f g) := by
  obtain ⟨a, ha⟩ := (inSpace_eq ..).1 hf
  obtain ⟨b, hb⟩ := (inSpace_eq ..).1 hg
  rw [inSpace_eq]
  refine ⟨fun j => a (j.take e₁.indexShape.length) * b (j.drop e₁.indexShape.length), fun α x z hα hx hz => ?_⟩
  have hi : (Elem.tensorProduct [e₁, e₂]).indexShape = e₁.indexShape ++ e₂.indexShape := by
    simp only [Elem.indexShape, Elem.indexShapeL, List.flatten_cons, List.flatten_nil, List.append_nil]
  rw [hi, lsum_ndindex_append]
  have hα' := hα
  have hx' := hx
  have hsp := (show InB z _ from hz).split
  simp only [Cell.spatialDim, Cell.spatialDimL, Nat.add_zero] at hα' hx'
  have e1 := ha (α.take c₁.spatialDim) (x.take c₁.spatialDim) (z.take vs₁.length) (by rw [List.length_take]; omega)
    (by rw [List.length_take]; omega) hsp.1
  have e2 := hb (α.drop c₁.spatialDim) (x.drop c₁.spatialDim) (z.drop vs₁.length) (by rw [List.length_drop]; omega)
    (by rw [List.length_drop]; omega) hsp.2
  show f _ _ _ * g _ _ _ = _
  rw [e1, e2, ← lsum_mul_right]
  refine lsum_congr fun j₁ hj₁ => ?_
  rw [← lsum_mul_left]
  refine lsum_congr fun j₂ hj₂ => ?_
  have hj₁ := mem_ndindex.1 hj₁
  have hj₂ := mem_ndindex.1 hj₂
  have hl₁ : j₁.length = e₁.indexShape.length := InB.length hj₁
  rw [basis_two h₁ h₂ hv₁ hv₂ hj₁ hj₂ α x z hα hx hz]
  beta_reduce
  rw [List.take_left' hl₁, List.drop_left' hl₁]
  show _ = _ * (basisValue _ _ _ _ _ _ _ * basisValue _ _ _ _ _ _ _)
  ring

/-! ### Wrapped elements -/

theorem wrapValue_lsum {comps : List Comp} {vs : List Nat} (hc : ∀ neg ix, Comp.entry neg ix ∈ comps → InRange ix vs)
    (l : List (List Nat)) (a : List Nat → K) (F : List Nat → List Nat → K) (G : List Nat → K)
    (hG : ∀ z, InRange z vs → G z = lsum l fun j => a j * F j z) (k : Nat) :
    wrapValue (.ok comps) G k = lsum l fun j => a j * wrapValue (.ok comps) (F j) k := by
  unfold wrapValue
  simp only
  cases hk : comps[k]? with
  | none => simp only [mul_zero]; exact (lsum_zero fun _ _ => rfl).symm
  | some c =>
    cases c with
    | zero => simp only [compValue, mul_zero]; exact (lsum_zero fun _ _ => rfl).symm
    | entry neg ix =>
      have := hG ix (hc neg ix (List.mem_of_getElem? hk))
      cases neg
      · exact this
      · simp only [compValue, this, ← lsum_neg]
        exact lsum_congr fun j _ => by ring

theorem inSpace_hdiv {w : Elem} {c : Cell} {vs ws : List Nat} {comps : List Comp} {f : Jet K}
    (hs : selectHdiv w.factorsOf = .ok comps) (hc : ∀ neg ix, Comp.entry neg ix ∈ comps → InRange ix vs)
    (hf : InSpace φ w c vs f) :
    InSpace φ (.hdiv w) c ws fun α x z => wrapValue (.ok comps) (f α x) (z.headD 0) := by
  obtain ⟨a, ha⟩ := (inSpace_eq ..).1 hf
  rw [inSpace_eq]
  refine ⟨a, fun α x z hα hx _ => ?_⟩
  simp only [Elem.indexShape, basisValue, hs]
  exact wrapValue_lsum hc _ a (fun j => basisValue φ w α (c.dimension, 0) x j) _ (fun z hz => ha α x z hα hx hz) _

theorem inSpace_hcurl {w : Elem} {c : Cell} {vs ws : List Nat} {comps : List Comp} {f : Jet K}
    (hs : selectHcurl w.factorsOf = .ok comps) (hc : ∀ neg ix, Comp.entry neg ix ∈ comps → InRange ix vs)
    (hf : InSpace φ w c vs f) :
    InSpace φ (.hcurl w) c ws fun α x z => wrapValue (.ok comps) (f α x) (z.headD 0) := by
  obtain ⟨a, ha⟩ := (inSpace_eq ..).1 hf
  rw [inSpace_eq]
  refine ⟨a, fun α x z hα hx _ => ?_⟩
  simp only [Elem.indexShape, basisValue, hs]
  exact wrapValue_lsum hc _ a (fun j => basisValue φ w α (c.dimension, 0) x j) _ (fun z hz => ha α x z hα hx hz) _

/-! ### Sums -/

theorem sum_first {e₁ e₂ : Elem} (α : List Nat) (ent : Dim × Nat) (x : List K) (z : List Nat) {k : Nat} (h : k < e₁.spaceDim) :
    basisValue φ (.enriched [e₁, e₂]) α ent x [k] z = basisValue φ e₁ α ent x (unravel e₁.indexShape k) z := by
  simp only [basisValue, sumValue]
  exact if_pos h

theorem sum_second {e₁ e₂ : Elem} (α : List Nat) (ent : Dim × Nat) (x : List K) (z : List Nat) {k : Nat}
    (h : ¬ k < e₁.spaceDim) (h2 : k - e₁.spaceDim < e₂.spaceDim) :
    basisValue φ (.enriched [e₁, e₂]) α ent x [k] z =
      basisValue φ e₂ α ent x (unravel e₂.indexShape (k - e₁.spaceDim)) z := by
  simp only [basisValue, sumValue]
  exact (if_neg h).trans (if_pos h2)

theorem inSpace_left {e₁ e₂ : Elem} {c : Cell} {vs : List Nat} {f : Jet K} (h : InSpace φ e₁ c vs f) :
    InSpace φ (.enriched [e₁, e₂]) c vs f := by
  obtain ⟨a, ha⟩ := (inSpace_eq ..).1 h
  rw [inSpace_eq]
  refine ⟨fun j => if j.headD 0 < e₁.spaceDim then a (unravel e₁.indexShape (j.headD 0)) else 0, fun α x z hα hx hz => ?_⟩
  rw [ha α x z hα hx hz]
  simp only [Elem.indexShape, Elem.spaceDimL, List.sum_cons, List.sum_nil, Nat.add_zero]
  rw [lsum_ndindex_one, List.range_add, lsum_append, lsum_map, ndindex_eq_map_unravel, lsum_map, Elem.indexShape_prod,
    lsum_zero (l := List.range e₂.spaceDim) (fun k _ => by
      show (if e₁.spaceDim + k < e₁.spaceDim then a (unravel e₁.indexShape (e₁.spaceDim + k)) else 0) * _ = (0 : K)
      rw [if_neg (by omega), zero_mul]), add_zero]
  refine lsum_congr fun k hk => ?_
  have hk := List.mem_range.1 hk
  show _ = (if k < e₁.spaceDim then a (unravel e₁.indexShape k) else 0) * _
  rw [sum_first α _ x z hk, if_pos hk]

theorem inSpace_right {e₁ e₂ : Elem} {c : Cell} {vs : List Nat} {f : Jet K} (h : InSpace φ e₂ c vs f) :
    InSpace φ (.enriched [e₁, e₂]) c vs f := by
  obtain ⟨a, ha⟩ := (inSpace_eq ..).1 h
  rw [inSpace_eq]
  refine ⟨fun j => if j.headD 0 < e₁.spaceDim then 0 else a (unravel e₂.indexShape (j.headD 0 - e₁.spaceDim)),
    fun α x z hα hx hz => ?_⟩
  rw [ha α x z hα hx hz]
  simp only [Elem.indexShape, Elem.spaceDimL, List.sum_cons, List.sum_nil, Nat.add_zero]
  rw [lsum_ndindex_one, List.range_add, lsum_append, lsum_map, ndindex_eq_map_unravel, lsum_map, Elem.indexShape_prod,
    lsum_zero (l := List.range e₁.spaceDim) (fun k hk => by
      show (if k < e₁.spaceDim then 0 else a (unravel e₂.indexShape (k - e₁.spaceDim))) * _ = (0 : K)
      rw [if_pos (List.mem_range.1 hk), zero_mul]), zero_add]
  refine lsum_congr fun k hk => ?_
  have hk := List.mem_range.1 hk
  have hn : ¬ e₁.spaceDim + k < e₁.spaceDim := by omega
  have he : e₁.spaceDim + k - e₁.spaceDim = k := by omega
  show _ = (if e₁.spaceDim + k < e₁.spaceDim then 0 else a (unravel e₂.indexShape (e₁.spaceDim + k - e₁.spaceDim))) * _
  rw [sum_second α _ x z hn (by rw [he]; exact hk), if_neg hn, he]

theorem basis_sum {e₁ e₂ : Elem} {c : Cell} {j : List Nat} (hj : InRange j (Elem.enriched [e₁, e₂]).indexShape) :
    (∃ i, InRange i e₁.indexShape ∧ basisJet φ (.enriched [e₁, e₂]) c j = basisJet φ e₁ c i) ∨
    ∃ i, InRange i e₂.indexShape ∧ basisJet φ (.enriched [e₁, e₂]) c j = basisJet φ e₂ c i := by
  simp only [Elem.indexShape, Elem.spaceDimL, List.sum_cons, List.sum_nil, Nat.add_zero] at hj
  cases hj with
  | @cons k _ t _ hk ht =>
  cases ht
  by_cases h : k < e₁.spaceDim
  · refine .inl ⟨unravel e₁.indexShape k, unravel_bounds (by rw [Elem.indexShape_prod]; exact h), ?_⟩
    funext α x z
    exact sum_first α _ x z h
  · have h2 : k - e₁.spaceDim < e₂.spaceDim := by omega
    refine .inr ⟨unravel e₂.indexShape (k - e₁.spaceDim), unravel_bounds (by rw [Elem.indexShape_prod]; exact h2), ?_⟩
    funext α x z
    exact sum_second α _ x z h h2

/-! ### Functions of wrapped elements and sums, taken apart -/

theorem hdiv_inv {w : Elem} {c : Cell} {vs ws : List Nat} {comps : List Comp} {f : Jet K}
    (hs : selectHdiv w.factorsOf = .ok comps) (hc : ∀ neg ix, Comp.entry neg ix ∈ comps → InRange ix vs)
    (hf : InSpace φ (.hdiv w) c ws f) : ∃ g, InSpace φ w c vs g ∧ ∀ α x z, α.length = c.spatialDim → x.length = c.spatialDim →
      InRange z ws → f α x z = wrapValue (.ok comps) (g α x) (z.headD 0) := by
  obtain ⟨a, ha⟩ := (inSpace_eq ..).1 hf
  refine ⟨fun α x z => lsum (ndindex w.indexShape) fun j => a j * basisValue φ w α (c.dimension, 0) x j z,
    ⟨a, fun _ _ _ _ _ _ => rfl⟩, fun α x z hα hx hz => ?_⟩
  rw [ha α x z hα hx hz, wrapValue_lsum hc _ a (fun j => basisValue φ w α (c.dimension, 0) x j) _ fun z _ => rfl]
  simp only [Elem.indexShape, basisValue, hs]

theorem hcurl_inv {w : Elem} {c : Cell} {vs ws : List Nat} {comps : List Comp} {f : Jet K}
    (hs : selectHcurl w.factorsOf = .ok comps) (hc : ∀ neg ix, Comp.entry neg ix ∈ comps → InRange ix vs)
    (hf : InSpace φ (.hcurl w) c ws f) : ∃ g, InSpace φ w c vs g ∧ ∀ α x z, α.length = c.spatialDim → x.length = c.spatialDim →
      InRange z ws → f α x z = wrapValue (.ok comps) (g α x) (z.headD 0) := by
  obtain ⟨a, ha⟩ := (inSpace_eq ..).1 hf
  refine ⟨fun α x z => lsum (ndindex w.indexShape) fun j => a j * basisValue φ w α (c.dimension, 0) x j z,
    ⟨a, fun _ _ _ _ _ _ => rfl⟩, fun α x z hα hx hz => ?_⟩
  rw [ha α x z hα hx hz, wrapValue_lsum hc _ a (fun j => basisValue φ w α (c.dimension, 0) x j) _ fun z _ => rfl]
  simp only [Elem.indexShape, basisValue, hs]

theorem sum_inv {e₁ e₂ : Elem} {c : Cell} {vs : List Nat} {f : Jet K} (hf : InSpace φ (.enriched [e₁, e₂]) c vs f) :
    ∃ f₁ f₂, InSpace φ e₁ c vs f₁ ∧ InSpace φ e₂ c vs f₂ ∧ ∀ α x z, α.length = c.spatialDim → x.length = c.spatialDim →
      InRange z vs → f α x z = f₁ α x z + f₂ α x z := by
  obtain ⟨a, ha⟩ := (inSpace_eq ..).1 hf
  refine ⟨_, _, inSpace_lsum (fun k => a [k]) (fun k => basisJet φ e₁ c (unravel e₁.indexShape k)) (List.range e₁.spaceDim)
      fun k hk => inSpace_basis _ _ _ (unravel_bounds (by rw [Elem.indexShape_prod]; exact List.mem_range.1 hk)),
    inSpace_lsum (fun k => a [e₁.spaceDim + k]) (fun k => basisJet φ e₂ c (unravel e₂.indexShape k)) (List.range e₂.spaceDim)
      fun k hk => inSpace_basis _ _ _ (unravel_bounds (by rw [Elem.indexShape_prod]; exact List.mem_range.1 hk)),
    fun α x z hα hx hz => ?_⟩
  rw [ha α x z hα hx hz]
  simp only [Elem.indexShape, Elem.spaceDimL, List.sum_cons, List.sum_nil, Nat.add_zero]
  rw [lsum_ndindex_one, List.range_add, lsum_append, lsum_map]
  refine congrArg₂ (· + ·) (lsum_congr fun k hk => ?_) (lsum_congr fun k hk => ?_)
  · rw [sum_first α _ x z (List.mem_range.1 hk)]
    rfl
  · have hk := List.mem_range.1 hk
    have hn : ¬ e₁.spaceDim + k < e₁.spaceDim := by omega
    have he : e₁.spaceDim + k - e₁.spaceDim = k := by omega
    rw [sum_second α _ x z hn (by rw [he]; exact hk), he]
    rfl

theorem inSpace_sum {e₁ e₂ : Elem} {c : Cell} {vs : List Nat} {f₁ f₂ : Jet K} (h₁ : InSpace φ e₁ c vs f₁)
    (h₂ : InSpace φ e₂ c vs f₂) : InSpace φ (.enriched [e₁, e₂]) c vs fun α x z => f₁ α x z + f₂ α x z :=
  inSpace_add (inSpace_left h₁) (inSpace_right h₂)

/-! ### Derivatives -/

theorem length_bump (k : Nat) (α : List Nat) : (bump k α).length = α.length := by
  simp [bump]

/-- The derivative maps the functions of the first element to functions of the second. -/
abbrev Derives (φ : LeafVals K) (a b : Elem) : Prop :=
  ∀ f, InSpace φ a (.simplex 1) [] f → InSpace φ b (.simplex 1) [] (partialAt 0 [] f)

/-- The square of intervals. -/
abbrev sq : Cell := .prod [.simplex 1, .simplex 1]

theorem sq_dim : sq.spatialDim = 2 := rfl

theorem partial_basis {e q : Elem} (k : Nat)
    (h : ∀ j, InRange j e.indexShape → InSpace φ q sq [] (partialAt k [] (basisJet φ e sq j))) (f : Jet K)
    (hf : InSpace φ e sq [] f) : InSpace φ q sq [] (partialAt k [] f) :=
  maps_of_basis (partialAt k [])
    (fun f g hfg α x z hα hx _ => hfg (bump k α) x [] (by rw [length_bump]; exact hα) hx .nil)
    (fun _ _ _ _ _ _ => rfl) h f hf

theorem indexShape_two (e₁ e₂ : Elem) : (Elem.tensorProduct [e₁, e₂]).indexShape = e₁.indexShape ++ e₂.indexShape := by
  simp only [Elem.indexShape, Elem.indexShapeL, List.flatten_cons, List.flatten_nil, List.append_nil]

theorem partial_first {a b e : Elem} (ha : a.cell = .ok (.simplex 1)) (hb : b.cell = .ok (.simplex 1))
    (he : e.cell = .ok (.simplex 1)) (va : a.valueShape = .ok []) (vb : b.valueShape = .ok []) (ve : e.valueShape = .ok [])
    (hd : Derives φ a b) (f : Jet K) (hf : InSpace φ (.tensorProduct [a, e]) sq [] f) :
    InSpace φ (.tensorProduct [b, e]) sq [] (partialAt 0 [] f) := by
  refine partial_basis 0 (fun j hj => ?_) f hf
  rw [indexShape_two] at hj
  have hsp := (show InB j _ from hj).split
  rw [← List.take_append_drop a.indexShape.length j]
  refine inSpace_congr (inSpace_prod hb he vb ve (hd _ (inSpace_basis a (.simplex 1) [] hsp.1))
    (inSpace_basis e (.simplex 1) [] hsp.2)) fun α x z hα hx hz => ?_
  have := basis_two (φ := φ) ha he va ve hsp.1 hsp.2 (bump 0 α) x [] (by rw [length_bump]; exact hα) hx .nil
  refine this.trans ?_
  cases hz
  match α, hα with
  | [p, q], _ => rfl

theorem partial_second {a b e : Elem} (ha : a.cell = .ok (.simplex 1)) (hb : b.cell = .ok (.simplex 1))
    (he : e.cell = .ok (.simplex 1)) (va : a.valueShape = .ok []) (vb : b.valueShape = .ok []) (ve : e.valueShape = .ok [])
    (hd : Derives φ a b) (f : Jet K) (hf : InSpace φ (.tensorProduct [e, a]) sq [] f) :
    InSpace φ (.tensorProduct [e, b]) sq [] (partialAt 1 [] f) := by
  refine partial_basis 1 (fun j hj => ?_) f hf
  rw [indexShape_two] at hj
  have hsp := (show InB j _ from hj).split
  rw [← List.take_append_drop e.indexShape.length j]
  refine inSpace_congr (inSpace_prod he hb ve vb (inSpace_basis e (.simplex 1) [] hsp.1)
    (hd _ (inSpace_basis a (.simplex 1) [] hsp.2))) fun α x z hα hx hz => ?_
  have := basis_two (φ := φ) he ha ve va hsp.1 hsp.2 (bump 1 α) x [] (by rw [length_bump]; exact hα) hx .nil
  refine this.trans ?_
  cases hz
  match α, hα with
  | [p, q], _ => rfl

end
end FInAT
