import Verif.Lemmas.Complex
import Verif.Props.Unity

/-!
# C109: an element is polynomial on every piece of its complex
-/

namespace FInAT.Props

open FInAT Spec Elem MvPolynomial

section
variable {K : Type} [CommRing K]

/-- **C109.** Let the functions of the elements of FIAT be polynomials of their degree on each piece of their complexes. Then,
whenever a composite element has a complex, its basis functions are polynomials on each piece of that complex, of the degree that the
element reports: the derivatives of any order at the points of the piece are the derivatives of one polynomial. -/
theorem C109_pieces (φ : LeafVals K) (D : Sx → Nat → Region K → Prop) (hD : Cuts D) (k : Leaf → Sx) (e : Elem) (c : Cell)
    (X : Cx) (hl : AllLeaves (LeafOn φ D k) e) (hb : Cubes e) (hc : e.cell = .ok c) (hX : complex k e = .ok X) (r : Region K)
    (hr : CxPiece D X r) : PolynomialOn φ e c r := (polynomialOn hD e c X hl hb hc hX).2 r hr

/-- **C109**, dimension: the points of the pieces have the coordinates of the cell. -/
theorem C109_dimension (φ : LeafVals K) (D : Sx → Nat → Region K → Prop) (hD : Cuts D) (k : Leaf → Sx) (e : Elem) (c : Cell)
    (X : Cx) (hl : AllLeaves (LeafOn φ D k) e) (hb : Cubes e) (hc : e.cell = .ok c) (hX : complex k e = .ok X) (r : Region K)
    (hr : CxPiece D X r) (x : List K) (hx : r x) : x.length = c.spatialDim :=
  (piece_length hD X r hr x hx).trans (polynomialOn hD e c X hl hb hc hX).1

/-- **C109**, integrals: take a complex at least as fine as those of two elements, and for one of its pieces a rule (points of the
piece and weights) that integrates over the piece all polynomials with monomials that are products of one of the degree of the first
and one of the degree of the second element. Then the rule integrates the products of (derivatives of) their basis functions exactly:
on the piece these are polynomials, and the sum is the integral of their product. -/
theorem C109_integrals (φ : LeafVals K) (D : Sx → Nat → Region K → Prop) (hD : Cuts D) (k : Leaf → Sx) (e₁ e₂ : Elem) (c : Cell)
    (X₁ X₂ X : Cx) (t₁ t₂ : DegTree) (hl₁ : AllLeaves (LeafOn φ D k) e₁) (hl₂ : AllLeaves (LeafOn φ D k) e₂) (hb₁ : Cubes e₁)
    (hb₂ : Cubes e₂) (hc₁ : e₁.cell = .ok c) (hc₂ : e₂.cell = .ok c) (hX₁ : complex k e₁ = .ok X₁)
    (hX₂ : complex k e₂ = .ok X₂) (hg₁ : X.ge X₁ = true) (hg₂ : X.ge X₂ = true) (hd₁ : e₁.degree = .ok t₁)
    (hd₂ : e₂.degree = .ok t₂) (r : Region K) (hr : CxPiece D X r) (rule : List (List K × K)) (hin : ∀ xw ∈ rule, r xw.1)
    (integral : MvPolynomial ℕ K → K)
    (hexact : ∀ q ∈ PolyLt K c.spatialDim, (∀ m ∈ q.support, ∃ m₁ m₂ : ℕ →₀ ℕ, OfDegree c t₁ m₁ ∧ OfDegree c t₂ m₂ ∧ m = m₁ + m₂) →
      (rule.map fun xw => xw.2 * evalAt xw.1 q).sum = integral q) (i z j w : List Nat) :
    ∃ q₁ q₂ : MvPolynomial ℕ K,
      (∀ α x, α.length = c.spatialDim → r x → basisValue φ e₁ α (c.dimension, 0) x i z = evalAt x (partialD 0 α q₁)) ∧
      (∀ α x, α.length = c.spatialDim → r x → basisValue φ e₂ α (c.dimension, 0) x j w = evalAt x (partialD 0 α q₂)) ∧
      ∀ α β, α.length = c.spatialDim → β.length = c.spatialDim →
        (rule.map fun xw => xw.2 * (basisValue φ e₁ α (c.dimension, 0) xw.1 i z * basisValue φ e₂ β (c.dimension, 0) xw.1 j w)).sum =
          integral (partialD 0 α q₁ * partialD 0 β q₂) := by
  classical
  obtain ⟨r₁, hr₁, hs₁⟩ := cx_refine hD X X₁ hg₁ r hr
  obtain ⟨r₂, hr₂, hs₂⟩ := cx_refine hD X X₂ hg₂ r hr
  obtain ⟨q₁, p₁, g₁, v₁⟩ := (polynomialOn hD e₁ c X₁ hl₁ hb₁ hc₁ hX₁).2 r₁ hr₁ i z
  obtain ⟨q₂, p₂, g₂, v₂⟩ := (polynomialOn hD e₂ c X₂ hl₂ hb₂ hc₂ hX₂).2 r₂ hr₂ j w
  refine ⟨q₁, q₂, fun α x hα hx => v₁ α x hα (hs₁ x hx), fun α x hα hx => v₂ α x hα (hs₂ x hx), fun α β hα hβ => ?_⟩
  rw [← hexact]
  · refine congrArg List.sum (List.map_congr_left fun xw hxw => ?_)
    rw [v₁ α _ hα (hs₁ _ (hin xw hxw)), v₂ β _ hβ (hs₂ _ (hin xw hxw)), map_mul]
  · exact mul_mem (partialD_supported _ p₁ 0 α) (partialD_supported _ p₂ 0 β)
  · intro m hm
    obtain ⟨m₁, h1, m₂, h2, rfl⟩ := Finset.mem_add.1 (support_mul _ _ hm)
    exact ⟨m₁, m₂, partialD_keeps_degree (g₁ t₁ hd₁) α m₁ h1, partialD_keeps_degree (g₂ t₂ hd₂) β m₂ h2, rfl⟩

/-- **C109**, tables: if all points lie in one piece, the entries of the tables are values of the derivatives of polynomials that
do not depend on the point and are of the degree of the element. -/
theorem C109_tables [DecidableEq K] (F : Fiat K) (R : Rules K) (D : Sx → Nat → Region K → Prop) (hD : Cuts D) (k : Leaf → Sx)
    (e : Elem) (c : Cell) (vs : List Nat) (X : Cx) (order n : Nat) (p : PSet K) (hs : Shaped e) (hq : Cubes e)
    (hl : AllLeaves (PlainLeafOK F order) e) (ho : AllLeaves (LeafOn (leafVals F R) D k) e) (hc : e.cell = .ok c)
    (hv : e.valueShape = .ok vs) (hX : complex k e = .ok X) (hw : p.WF n) (hp : PlainPoints p c.spatialDim) (r : Region K)
    (hr : CxPiece D X r) (hin : ∀ x ∈ p.pts, r x) :
    ∃ Q : List Nat → List Nat → MvPolynomial ℕ K, (∀ t, e.degree = .ok t → ∀ i z, PolyOfDegree c t (Q i z)) ∧ Yields (evaluate (basisInterp F R) e order p none) n fun T =>
      (∀ α, α ∈ T.keys ↔ α.length = c.spatialDim ∧ α.sum ≤ order) ∧
      ∀ α table, T.get? α = some table → ∀ ρ i z, p.Valid ρ → InRange i e.indexShape → InRange z vs →
        table.eval ρ (i ++ z) = evalAt (p.pointAt ρ) (partialD 0 α (Q i z)) := by
  choose Q _ hd hQ using (polynomialOn hD e c X ho hq hc hX).2 r hr
  obtain ⟨T, m, h1, hT⟩ := tabulation (basisSem F R) e hs order p none c vs n n hw (Nat.le_refl n) hc hv
    (admits_plain F R order e p (c.dimension, 0) c hq hl hc (cell_isEntity c) (by rwa [Cell.total_dimension]))
  refine ⟨Q, fun t ht i z => hd i z t ht, T, m, h1, hT.keys, fun α table hα ρ i z hρ hi hz => ?_⟩
  have hk := (hT.keys α).1 (List.mem_map.2 ⟨_, Dict.mem_of_get?_eq_some hα, rfl⟩)
  rw [← hQ i z α (p.pointAt ρ) hk.1 (hin _ (PSet.pointAt_mem hw hρ))]
  exact hT.value α table hα ρ i z hρ hi hz

end

/-- **C109**, sums: the complex of a sum is that of one of the summands, and at least as fine as those of all. -/
theorem C109_sum (k : Leaf → Sx) (es : List Elem) (X : Cx) (h : complex k (.enriched es) = .ok X) :
    ∃ xs, complexL k es = .ok xs ∧ X ∈ xs ∧ ∀ Y ∈ xs, X.ge Y = true := by
  simp only [complex] at h
  rw [bind_ok] at h
  obtain ⟨xs, h1, h2⟩ := h
  exact ⟨xs, h1, maxComplex_ok h2⟩

/-- **C109**, order: for complexes that are not products `max_complex` finds the finest complex if there is one, whatever the order
of the set, and raises otherwise. -/
theorem C109_max (ss : List Sx) : (∀ m, maxComplex (ss.map .sx) = .ok (.sx m) ↔ m ∈ ss ∧ ∀ b ∈ ss, m.ge b = true) ∧
    ((¬ ∃ m ∈ ss, ∀ b ∈ ss, m.ge b = true) → maxComplex (ss.map .sx) = .error .valueError) := by
  have key : ∀ m, maxComplex (ss.map .sx) = .ok (.sx m) ↔ m ∈ ss ∧ ∀ b ∈ ss, m.ge b = true := by
    intro m
    constructor
    · intro h
      obtain ⟨h1, h2⟩ := maxComplex_ok h
      obtain ⟨m', h3, h4⟩ := List.mem_map.1 h1
      cases h4
      exact ⟨h3, fun b hb => h2 (.sx b) (List.mem_map.2 ⟨b, hb, rfl⟩)⟩
    · rintro ⟨h1, h2⟩
      cases ss with
      | nil => cases h1
      | cons s ss =>
        have hf := foldl_max ss s m h1 h2
        simp only [List.map_cons, maxComplex, hf]
        rw [if_pos]
        rw [List.all_eq_true]
        intro x hx
        obtain ⟨b, hb, rfl⟩ := List.mem_map.1 (show x ∈ (s :: ss).map Cx.sx from hx)
        exact h2 b hb
  refine ⟨key, fun hno => ?_⟩
  cases hm : maxComplex (ss.map .sx) with
  | error e =>
    cases ss with
    | nil => exact hm.symm
    | cons s ss =>
      simp only [List.map_cons, maxComplex] at hm
      split at hm
      · cases hm
      · exact hm.symm
  | ok m =>
    obtain ⟨m', _, rfl⟩ := List.mem_map.1 (maxComplex_ok hm).1
    exact absurd ⟨m', (key m').1 hm⟩ hno

/-! ### The hypotheses are met -/

namespace ComplexCases

/-- The interval, and the interval cut in half. -/
abbrev whole : Sx := .cell (.simplex 1)
abbrev halves : Sx := .split whole 0

/-- The two halves; other splittings have no pieces. -/
def pieces : Sx → Nat → Region ℚ → Prop := fun p n r =>
  p = whole ∧ n = 0 ∧ (r = (fun x => ∃ t, x = [t] ∧ t < 1 / 2) ∨ r = fun x => ∃ t, x = [t] ∧ 1 / 2 ≤ t)

theorem cuts : Cuts pieces := by
  rintro p n r ⟨rfl, rfl, h⟩
  refine ⟨_, rfl, fun x hx => ?_⟩
  rcases h with rfl | rfl <;> obtain ⟨t, rfl, -⟩ := hx <;> rfl

/-- Continuous functions that are linear on both halves. -/
def halfCg1 : Leaf := { cg1 with id := 7, fns := [0, 1, 2] }

/-- Its functions on the left and on the right. -/
noncomputable def left (i : Nat) : MvPolynomial ℕ ℚ := match i with
  | 0 => 1 - 2 * X 0
  | 1 => 2 * X 0
  | _ => 0
noncomputable def right (i : Nat) : MvPolynomial ℕ ℚ := match i with
  | 1 => 2 - 2 * X 0
  | 2 => 2 * X 0 - 1
  | _ => 0

/-- The values of the elements. -/
noncomputable def vals : LeafVals ℚ where
  leaf l α _ x i z :=
    if l.id = 7 then
      if x.headD 0 < 1 / 2 then evalAt x (partialD 0 α (left (i.headD 0))) else evalAt x (partialD 0 α (right (i.headD 0)))
    else evalAt x (partialD 0 α (ExactCases.poly l (i.headD 0) z))
  quad _ _ _ _ _ := 0

/-- The complexes of the elements. -/
def complexes (l : Leaf) : Sx := if l.id = 7 then halves else .cell l.cell

theorem X_mem : (X 0 : MvPolynomial ℕ ℚ) ∈ PolyLt ℚ 1 := X_mem_supported.2 (by simp)

theorem two_eq : (C 2 : MvPolynomial ℕ ℚ) = 2 := map_ofNat C 2

theorem linear_degree {q : MvPolynomial ℕ ℚ} (a b : ℚ) (h : q = C a + C b * X 0) : PolyOfDegree (.simplex 1) (.leaf 1) q := by
  classical
  subst h
  intro m hm
  simp only [OfDegree, List.range_succ, List.range_zero, List.nil_append, List.map_cons, List.map_nil, List.sum_cons, List.sum_nil,
    Nat.add_zero]
  rw [mem_support_iff] at hm
  by_contra hlt
  apply hm
  have h1 : (0 : ℕ →₀ ℕ) ≠ m := fun h => hlt (by rw [← h]; exact Nat.zero_le _)
  have h2 : Finsupp.single 0 1 ≠ m := fun h => hlt (by rw [← h]; simp)
  rw [coeff_add, coeff_C, if_neg h1, coeff_C_mul, coeff_X', if_neg h2]
  simp

theorem halfCg1_on : LeafOn vals pieces complexes halfCg1 := by
  refine ⟨rfl, ?_⟩
  have hk : complexes halfCg1 = halves := rfl
  rw [hk]
  rintro r ⟨-, -, h⟩ i z
  have h2 : (2 : MvPolynomial ℕ ℚ) ∈ PolyLt ℚ 1 := ofNat_mem _ 2
  rcases h with rfl | rfl
  · refine ⟨left (i.headD 0), ?_, fun t ht => ?_, ?_⟩
    · show left (i.headD 0) ∈ PolyLt ℚ 1
      unfold left
      split
      · exact sub_mem (one_mem _) (mul_mem h2 X_mem)
      · exact mul_mem h2 X_mem
      · exact zero_mem _
    · cases ht
      unfold left
      split
      · exact linear_degree 1 (-2) (by rw [map_neg, two_eq, map_one]; ring)
      · exact linear_degree 0 2 (by rw [two_eq, map_zero]; ring)
      · exact polyOfDegree_zero _ _
    · rintro α x _ ⟨t, rfl, ht⟩
      simp only [basisValue, vals]
      rw [if_pos (show halfCg1.id = 7 from rfl), if_pos (show ([t] : List ℚ).headD 0 < 1 / 2 from ht)]
  · refine ⟨right (i.headD 0), ?_, fun t ht => ?_, ?_⟩
    · show right (i.headD 0) ∈ PolyLt ℚ 1
      unfold right
      split
      · exact sub_mem h2 (mul_mem h2 X_mem)
      · exact sub_mem (mul_mem h2 X_mem) (one_mem _)
      · exact zero_mem _
    · cases ht
      unfold right
      split
      · exact linear_degree 2 (-2) (by rw [map_neg, two_eq]; ring)
      · exact linear_degree (-1) 2 (by rw [map_neg, two_eq, map_one]; ring)
      · exact polyOfDegree_zero _ _
    · rintro α x _ ⟨t, rfl, ht⟩
      simp only [basisValue, vals]
      rw [if_pos (show halfCg1.id = 7 from rfl), if_neg (show ¬ ([t] : List ℚ).headD 0 < 1 / 2 from not_lt.2 ht)]

theorem cg1_on : LeafOn vals pieces complexes cg1 := by
  refine ⟨rfl, ?_⟩
  intro r _ i z
  refine ⟨_, ExactCases.poly_leaf cg1 (.inl rfl) (i.headD 0) z, fun t ht => ?_, fun α x _ _ => ?_⟩
  · cases ht
    obtain ⟨a, b, h, -⟩ := ExactCases.poly_lin cg1 (.inl rfl) (i.headD 0) z
    exact linear_degree a b h
  simp only [basisValue, vals]
  rw [if_neg (by decide)]

/-- A vector-valued sum on the square, one summand of which is cut in half along the first axis. -/
def sum : Elem := .tensorFE (.enriched [.flattened (.tensorProduct [.leaf halfCg1, .leaf cg1]),
  .flattened (.tensorProduct [.leaf cg1, .leaf cg1])]) [2] false

theorem sum_leaves : AllLeaves (LeafOn vals pieces complexes) sum := by
  simp only [sum, AllLeaves, AllLeavesL]
  exact ⟨⟨halfCg1_on, cg1_on, trivial⟩, ⟨cg1_on, cg1_on, trivial⟩, trivial⟩

theorem sum_cubes : Cubes sum := by
  simp only [sum, Cubes, CubesL]
  exact ⟨⟨⟨trivial, trivial, trivial⟩, fun c hc => by cases hc; exact ⟨Nat.le_refl 1, Nat.le_refl 1, trivial⟩⟩,
    ⟨⟨trivial, trivial, trivial⟩, fun c hc => by cases hc; exact ⟨Nat.le_refl 1, Nat.le_refl 1, trivial⟩⟩, trivial⟩

theorem sum_degree : sum.degree = .ok (.leaf 1) := rfl

theorem sum_complex : complex complexes sum = .ok (.prod [.sx halves, .sx whole]) := rfl

/-- The left half of the square. -/
def leftHalf : Region ℚ := times (fun x => ∃ t, x = [t] ∧ t < 1 / 2) (times (fun x => x.length = 1) fun x => x = [])

theorem leftHalf_piece : CxPiece pieces (.prod [.sx halves, .sx whole]) leftHalf := by
  simp only [CxPiece, CxPieceL, leftHalf]
  exact ⟨_, _, ⟨rfl, rfl, .inl rfl⟩, ⟨_, _, rfl, rfl, rfl⟩, rfl⟩

example : leftHalf [1 / 3, 5 / 6] := ⟨[1 / 3], [5 / 6], rfl, ⟨_, rfl, by norm_num⟩, [5 / 6], [], rfl, rfl, rfl⟩

example := C109_pieces vals pieces cuts complexes sum .quad _ sum_leaves sum_cubes rfl sum_complex leftHalf leftHalf_piece

theorem dg0_on : LeafOn vals pieces complexes dg0 := by
  classical
  refine ⟨rfl, ?_⟩
  intro r _ i z
  refine ⟨_, ExactCases.poly_leaf dg0 (.inr rfl) (i.headD 0) z, fun t ht => ?_, fun α x _ _ => ?_⟩
  · cases ht
    obtain ⟨a, b, h, hb⟩ := ExactCases.poly_lin dg0 (.inr rfl) (i.headD 0) z
    rw [h, hb rfl, C_0, zero_mul, add_zero]
    intro m hm
    rw [mem_support_iff, coeff_C] at hm
    have hm : 0 = m := by
      by_contra h
      exact hm (if_neg h)
    subst hm
    exact Nat.le_refl 0
  · simp only [basisValue, vals]
    rw [if_neg (by decide)]

theorem midpoint (q : MvPolynomial ℕ ℚ) (hq : q ∈ PolyLt ℚ 1) (h : ∀ m ∈ q.support, ∃ m₁ m₂ : ℕ →₀ ℕ,
    OfDegree (.simplex 1) (.leaf 1) m₁ ∧ OfDegree (.simplex 1) (.leaf 0) m₂ ∧ m = m₁ + m₂) :
    (([([1 / 4], 1 / 2)] : List (List ℚ × ℚ)).map fun xw => xw.2 * evalAt xw.1 q).sum =
      1 / 2 * coeff 0 q + 1 / 8 * coeff (Finsupp.single 0 1) q := by
  classical
  have he : q = C (coeff 0 q) + C (coeff (Finsupp.single 0 1) q) * X 0 := by
    ext m
    rw [coeff_add, coeff_C, coeff_C_mul, coeff_X']
    by_cases h0 : 0 = m
    · subst h0
      simp
    · rw [if_neg h0]
      by_cases h1 : Finsupp.single 0 1 = m
      · subst h1
        simp
      · rw [if_neg h1]
        simp only [mul_zero, add_zero]
        by_contra hne
        have hm : m ∈ q.support := mem_support_iff.2 hne
        obtain ⟨m₁, m₂, h2, h3, rfl⟩ := h m hm
        have h2 : m₁ 0 + 0 ≤ 1 := h2
        have h3 : m₂ 0 + 0 ≤ 0 := h3
        have hz : ∀ j, 1 ≤ j → (m₁ + m₂) j = 0 := fun j hj => exponent_zero hq hm hj
        have hs : m₁ + m₂ = Finsupp.single 0 ((m₁ + m₂) 0) := by
          ext j
          cases j with
          | zero => simp
          | succ j => rw [hz (j + 1) (by omega)]; simp
        have hv : (m₁ + m₂) 0 = 0 ∨ (m₁ + m₂) 0 = 1 := by
          rw [Finsupp.add_apply]
          omega
        rcases hv with hv | hv
        · exact h0 (by rw [hs, hv]; simp)
        · exact h1 (by rw [hs, hv])
  conv_lhs => rw [he]
  simp [evalAt]
  ring

/-- The midpoint rule on the left half of the interval, for an element of degree one and a constant. -/
example (i z j w : List Nat) := C109_integrals vals pieces cuts complexes (.leaf halfCg1)
  (.leaf dg0) (.simplex 1) (.sx halves) (.sx whole) (.sx halves) (.leaf 1) (.leaf 0) (by simpa only [AllLeaves] using halfCg1_on)
  (by simpa only [AllLeaves] using dg0_on) trivial trivial rfl rfl rfl rfl rfl rfl rfl rfl _
  (show CxPiece pieces (.sx halves) (fun x => ∃ t, x = [t] ∧ t < 1 / 2) by simp only [CxPiece]; exact ⟨rfl, rfl, .inl rfl⟩)
  [([1 / 4], 1 / 2)] (by simp only [List.mem_singleton, forall_eq]; exact ⟨_, rfl, by norm_num⟩)
  (fun q => 1 / 2 * coeff 0 q + 1 / 8 * coeff (Finsupp.single 0 1) q) midpoint i z j w

/-- On the whole square the functions are no polynomials, so the complex has to be finer than the cell: the first function
vanishes on the right half only. -/
example : vals.leaf halfCg1 [0] (.int 1, 0) [1 / 4] [0] [] = 1 / 2 ∧ vals.leaf halfCg1 [0] (.int 1, 0) [1 / 2] [0] [] = 0 ∧
    vals.leaf halfCg1 [0] (.int 1, 0) [3 / 4] [0] [] = 0 := by
  refine ⟨?_, ?_, ?_⟩ <;> simp only [vals] <;> rw [if_pos (show halfCg1.id = 7 from rfl)]
  · rw [if_pos (by norm_num)]; simp [left, partialD, evalAt]; norm_num
  · rw [if_neg (by norm_num)]; simp [right, partialD, evalAt]
  · rw [if_neg (by norm_num)]; simp [right, partialD, evalAt]

/-- Tables of an element that is not cut: there is one piece. -/
example (order : Nat) := C109_tables ExactCases.fiat ExactCases.rules pieces cuts (fun l => .cell l.cell) UnityCases.vector .quad [3]
  (.prod [.sx whole, .sx whole]) order 1 UnityCases.points (by simp [UnityCases.vector, ExactCases.q1, Shaped])
  UnityCases.vector_cubes (UnityCases.vector_leaves order) (by
    have h : LeafOn (leafVals ExactCases.fiat ExactCases.rules) pieces (fun l => .cell l.cell) cg1 := by
      refine ⟨rfl, ?_⟩
      rintro r rfl i z
      have hp := (ExactCases.leaf_ok 0 cg1 (.inl rfl)).2.1
      refine ⟨_, hp.1 (i.headD 0) z, fun t ht => ?_, fun α x hα hx => hp.2 α x i z hα hx⟩
      cases ht
      obtain ⟨a, b, h, -⟩ := ExactCases.poly_lin cg1 (.inl rfl) (i.headD 0) z
      exact linear_degree a b h
    simp only [UnityCases.vector, ExactCases.q1, AllLeaves, AllLeavesL]
    exact ⟨h, h, trivial⟩) rfl rfl rfl UnityCases.points_wf ⟨_, _, rfl, by simp, by simp [Cell.spatialDim]⟩ _
  (by simp only [CxPiece]; exact intervals_piece 2) (fun x hx => inCell_length (UnityCases.points_in x hx))

/-- The finest complex is found in any order, ... -/
example : maxComplex [.sx whole, .sx (.split halves 1), .sx halves] = .ok (.sx (.split halves 1)) := rfl

/-- ... and two different splittings have none. -/
example : maxComplex [.sx (.split whole 1), .sx halves] = .error .valueError := rfl

end ComplexCases

/-- **C109**, order in products: `>` means finer in all factors, so for products that are cut in some of the factors only the result
depends on the order of the set: the sum of an element cut along one axis and one that is not cut has a complex or raises. -/
theorem C109_order_matters : maxComplex [.prod [.sx ComplexCases.halves, .sx ComplexCases.whole],
      .prod [.sx ComplexCases.whole, .sx ComplexCases.whole]] =
        .ok (.prod [.sx ComplexCases.halves, .sx ComplexCases.whole]) ∧
    maxComplex [.prod [.sx ComplexCases.whole, .sx ComplexCases.whole],
      .prod [.sx ComplexCases.halves, .sx ComplexCases.whole]] = .error .valueError := ⟨rfl, rfl⟩

end FInAT.Props
