import Verif.Lemmas.Exact
import Verif.Lemmas.RulePoints
import Verif.Props.Degree
import Verif.Props.Kronecker
import Verif.Props.Quadrature

/-!
# C105: rules of sufficient degree integrate products of basis functions exactly
-/

namespace FInAT.Props

open FInAT Spec Elem MvPolynomial

section
variable {K : Type} [Field K] [CharZero K] [DecidableEq K]

/-- The conditions on an element on the cell `c`: its leaves are polynomials of their degrees that can be tabulated at
the points of rules, what is flattened is on squares; it has the degree `t` and the value shape `vs`. -/
structure PolyElem (F : Fiat K) (R : Rules K) (Q : Leaf → Nat → List Nat → MvPolynomial ℕ K) (order : Nat) (c : Cell)
    (e : Elem) (t : DegTree) (vs : List Nat) : Prop where
  shaped : Shaped e
  squares : Squares e
  leaves : AllLeaves (fun l => RuleLeafOK F order l ∧ LeafIsPoly (leafVals F R) Q l ∧ LeafOfDegree Q l) e
  cell : e.cell = .ok c
  degree : e.degree = .ok t
  shape : e.valueShape = .ok vs

omit [CharZero K] in
theorem PolyElem.poly {F : Fiat K} {R : Rules K} {Q : Leaf → Nat → List Nat → MvPolynomial ℕ K} {order : Nat} {c : Cell}
    {e : Elem} {t : DegTree} {vs : List Nat} (h : PolyElem F R Q order c e t vs) (α i z : List Nat) :
    partialD 0 α (treePoly Q e i z) ∈ PolyLt K c.spatialDim ∧ PolyOfDegree c t (partialD 0 α (treePoly Q e i z)) :=
  ⟨partialD_supported _ (treePoly_mem Q e c (AllLeaves.imp (fun _ h => h.2.1.1) e h.leaves) h.cell i z) 0 α,
    partialD_keeps_degree (C76_degree Q e c t (AllLeaves.imp (fun _ h => h.2.2) e h.leaves) (squares_cubes e h.squares)
      h.cell h.degree i z) α⟩

/-- `make_quadrature` makes a rule of the degree, both elements can be tabulated at its points, and the sum over the
points of the weight times an entry of one table times an entry of the other is the integral over the cell of the
product of these derivatives of these components of these basis functions. -/
def ExactForms (F : Fiat K) (R : Rules K) (Q : Leaf → Nat → List Nat → MvPolynomial ℕ K) (FQ : FiatQuad K)
    (scheme : String) (c : Cell) (deg : Degree) (order n : Nat) (e₁ e₂ : Elem) (vs₁ vs₂ : List Nat) : Prop :=
  ∃ q n', makeQuadrature FQ scheme c deg n = .ok (q, n') ∧ Yields q.weightExpr n' fun W =>
    ∀ k₁ ≥ n', Yields (evaluate (basisInterp F R) e₁ order q.pointSet none) k₁ fun T₁ =>
      ∀ k₂ ≥ n', Yields (evaluate (basisInterp F R) e₂ order q.pointSet none) k₂ fun T₂ =>
        ∀ α β, α.length = c.spatialDim → α.sum ≤ order → β.length = c.spatialDim → β.sum ≤ order → ∃ t s,
          T₁.get? α = some t ∧ T₂.get? β = some s ∧ ∀ i z j w, InRange i e₁.indexShape → InRange z vs₁ →
            InRange j e₂.indexShape → InRange w vs₂ → ∀ ρ,
            formEntry W q.pointSet ρ t s (i ++ z) (j ++ w) =
              cellIntegral c (partialD 0 α (treePoly Q e₁ i z) * partialD 0 β (treePoly Q e₂ j w))

/-- The entries are sums over the points of the rule, whatever its degree. -/
theorem forms_sum (F : Fiat K) (R : Rules K) (Q : Leaf → Nat → List Nat → MvPolynomial ℕ K) (FQ : FiatQuad K)
    (scheme : String) (D : Nat) (hF : FiatExact FQ scheme D) (c : Cell) (order n : Nat) (e₁ e₂ : Elem) (t₁ t₂ : DegTree)
    (vs₁ vs₂ : List Nat) (h₁ : PolyElem F R Q order c e₁ t₁ vs₁) (h₂ : PolyElem F R Q order c e₂ t₂ vs₂) (deg : Degree)
    (hg : GoodDegree FQ scheme D c deg) :
    ∃ q n', makeQuadrature FQ scheme c deg n = .ok (q, n') ∧ Made q c deg n n' ∧ ∃ W n₁, q.weightExpr n' = .ok (W, n₁) ∧
      ∀ k₁ ≥ n', Yields (evaluate (basisInterp F R) e₁ order q.pointSet none) k₁ fun T₁ =>
        ∀ k₂ ≥ n', Yields (evaluate (basisInterp F R) e₂ order q.pointSet none) k₂ fun T₂ =>
          ∀ α β, α.length = c.spatialDim → α.sum ≤ order → β.length = c.spatialDim → β.sum ≤ order → ∃ t s,
            T₁.get? α = some t ∧ T₂.get? β = some s ∧ ∀ i z j w, InRange i e₁.indexShape → InRange z vs₁ →
              InRange j e₂.indexShape → InRange w vs₂ → ∀ ρ,
              formEntry W q.pointSet ρ t s (i ++ z) (j ++ w) =
                iterSum q fun x => evalAt x (partialD 0 α (treePoly Q e₁ i z)) * evalAt x (partialD 0 β (treePoly Q e₂ j w)) := by
  obtain ⟨q, n', hq, hM⟩ := makeQuadrature_spec hF c deg n hg
  have hpts := makeQuadrature_points hF c deg n n' q hg hq
  have ha₁ := admits_rule F R order e₁ q.pointSet c h₁.squares (AllLeaves.imp (fun _ h => h.1) e₁ h₁.leaves) h₁.cell hpts
  have ha₂ := admits_rule F R order e₂ q.pointSet c h₂.squares (AllLeaves.imp (fun _ h => h.1) e₂ h₂.leaves) h₂.cell hpts
  obtain ⟨W, n₁, hW1, -, -, hW⟩ := weightExpr_spec (n := n') hM.ok
  refine ⟨q, n', hq, hM, W, n₁, hW1, fun k₁ hk₁ => ?_⟩
  obtain ⟨T₁, m₁, hT1, hT₁⟩ := tabulation (basisSem F R) e₁ h₁.shaped order q.pointSet none c vs₁ n' k₁ hM.wf hk₁
    h₁.cell h₁.shape ha₁
  refine ⟨T₁, m₁, hT1, fun k₂ hk₂ => ?_⟩
  obtain ⟨T₂, m₂, hT2, hT₂⟩ := tabulation (basisSem F R) e₂ h₂.shaped order q.pointSet none c vs₂ n' k₂ hM.wf hk₂
    h₂.cell h₂.shape ha₂
  refine ⟨T₂, m₂, hT2, ?_⟩
  intro α β hα hα' hβ hβ'
  have h1 := (hT₁.keys α).2 ⟨hα, hα'⟩
  have h2 := (hT₂.keys β).2 ⟨hβ, hβ'⟩
  rw [← Dict.get?_isSome_iff, Option.isSome_iff_exists] at h1 h2
  obtain ⟨t, ht⟩ := h1
  obtain ⟨s, hs⟩ := h2
  refine ⟨t, s, ht, hs, ?_⟩
  intro i z j w hi hz hj hw ρ
  have hnd : (q.pointSet.indices.map Index.id).Nodup := hM.fresh.1
  rw [formEntry_eq hM.ok hnd hW
    (f := fun x => basisValue (leafVals F R) e₁ α (c.dimension, 0) x i z)
    (g := fun x => basisValue (leafVals F R) e₂ β (c.dimension, 0) x j w)
    (fun ρ hV => hT₁.value _ _ ht ρ _ _ hV hi hz) (fun ρ hV => hT₂.value _ _ hs ρ _ _ hV hj hw) ρ]
  rw [iterSum_pts q _ (fun x => evalAt x (partialD 0 α (treePoly Q e₁ i z)) *
    evalAt x (partialD 0 β (treePoly Q e₂ j w))) fun x hx => by
      rw [basisValue_poly Q e₁ c (AllLeaves.imp (fun _ h => h.2.1) e₁ h₁.leaves) h₁.cell α x i z hα (hM.width x hx),
        basisValue_poly Q e₂ c (AllLeaves.imp (fun _ h => h.2.1) e₂ h₂.leaves) h₂.cell β x j w hβ (hM.width x hx)]]

theorem exact_of_enough (F : Fiat K) (R : Rules K) (Q : Leaf → Nat → List Nat → MvPolynomial ℕ K) (FQ : FiatQuad K)
    (scheme : String) (D : Nat) (hF : FiatExact FQ scheme D) (c : Cell) (order n : Nat) (e₁ e₂ : Elem) (t₁ t₂ : DegTree)
    (vs₁ vs₂ : List Nat) (h₁ : PolyElem F R Q order c e₁ t₁ vs₁) (h₂ : PolyElem F R Q order c e₂ t₂ vs₂) (deg : Degree)
    (hg : GoodDegree FQ scheme D c deg)
    (hd : ∀ m₁ m₂, OfDegree c t₁ m₁ → OfDegree c t₂ m₂ →
      Within c deg ((List.range c.spatialDim).map fun j => m₁ j + m₂ j)) :
    ExactForms F R Q FQ scheme c deg order n e₁ e₂ vs₁ vs₂ := by
  obtain ⟨q, n', hq, hM, W, n₁, hW, H⟩ := forms_sum F R Q FQ scheme D hF c order n e₁ e₂ t₁ t₂ vs₁ vs₂ h₁ h₂ deg hg
  refine ⟨q, n', hq, W, n₁, hW, fun k₁ hk₁ => ?_⟩
  obtain ⟨T₁, m₁, hT₁, H⟩ := H k₁ hk₁
  refine ⟨T₁, m₁, hT₁, fun k₂ hk₂ => ?_⟩
  obtain ⟨T₂, m₂, hT₂, H⟩ := H k₂ hk₂
  refine ⟨T₂, m₂, hT₂, fun α β hα hα' hβ hβ' => ?_⟩
  obtain ⟨t, s, ht, hs, H⟩ := H α β hα hα' hβ hβ'
  refine ⟨t, s, ht, hs, fun i z j w hi hz hj hw ρ => ?_⟩
  rw [H i z j w hi hz hj hw ρ]
  exact exact_product hM.exact hM.width hd (h₁.poly α i z).1 (h₂.poly β j w).1 (h₁.poly α i z).2 (h₂.poly β j w).2

/-- **C105.** With the rule `make_quadrature` makes for the sum of the degrees of two elements (polynomial FIAT
leaves, any tree on a cell without hexahedra; factor by factor on products of cells), generated code computes the
integrals of all products of (derivatives of) their basis functions exactly: mass matrices, stiffness matrices, any
bilinear form with constant coefficients. -/
theorem C105_exact (F : Fiat K) (R : Rules K) (Q : Leaf → Nat → List Nat → MvPolynomial ℕ K) (FQ : FiatQuad K)
    (scheme : String) (D : Nat) (hF : FiatExact FQ scheme D) (c : Cell) (hc : NoHex c) (order n : Nat) (e₁ e₂ : Elem)
    (t₁ t₂ : DegTree) (vs₁ vs₂ : List Nat) (h₁ : PolyElem F R Q order c e₁ t₁ vs₁)
    (h₂ : PolyElem F R Q order c e₂ t₂ vs₂) (hg : GoodDegree FQ scheme D c (degreeSum c t₁ t₂)) :
    ExactForms F R Q FQ scheme c (degreeSum c t₁ t₂) order n e₁ e₂ vs₁ vs₂ :=
  exact_of_enough F R Q FQ scheme D hF c order n e₁ e₂ t₁ t₂ vs₁ vs₂ h₁ h₂ _ hg fun m₁ m₂ =>
    within_sum c t₁ t₂ m₁ m₂ hc

/-- **C105**, one number for all factors: any integer at least the sum of the largest degrees. -/
theorem C105_integer (F : Fiat K) (R : Rules K) (Q : Leaf → Nat → List Nat → MvPolynomial ℕ K) (FQ : FiatQuad K)
    (scheme : String) (D : Nat) (hF : FiatExact FQ scheme D) (c : Cell) (hc : NoHex c) (order n : Nat) (e₁ e₂ : Elem)
    (t₁ t₂ : DegTree) (vs₁ vs₂ : List Nat) (h₁ : PolyElem F R Q order c e₁ t₁ vs₁)
    (h₂ : PolyElem F R Q order c e₂ t₂ vs₂) (d : Nat) (hd : largest t₁ + largest t₂ ≤ d)
    (hg : GoodDegree FQ scheme D c (.int d)) :
    ExactForms F R Q FQ scheme c (.int d) order n e₁ e₂ vs₁ vs₂ :=
  exact_of_enough F R Q FQ scheme D hF c order n e₁ e₂ t₁ t₂ vs₁ vs₂ h₁ h₂ _ hg fun m₁ m₂ h1 h2 => by
    have := within_largest c t₁ t₂ (largest t₁) (d - largest t₁) m₁ m₂ hc (Nat.le_refl _) (by omega) h1 h2
    rwa [show ((largest t₁ : ℕ) : ℤ) + ((d - largest t₁ : ℕ) : ℤ) = d by omega] at this

end

/-! ### Examples -/

namespace ExactCases

/-- The basis functions of `CG1` and `DG0` on the interval. -/
noncomputable def poly (l : Leaf) (i : Nat) (_ : List Nat) : MvPolynomial ℕ ℚ :=
  match l.id, i with
  | 0, 0 => 1 - X 0
  | 0, 1 => X 0
  | 2, 0 => 1
  | _, _ => 0

/-- FIAT with these. -/
noncomputable def fiat : Fiat ℚ := polyFiat poly fun _ _ x => x

/-- No quadrature elements. -/
def rules : Rules ℚ := ⟨fun _ => .points .plain [[0]] [⟨0, 1⟩], fun x y => decide (x = y)⟩

theorem poly_lin (l : Leaf) (hl : l = cg1 ∨ l = dg0) (i : Nat) (z : List Nat) :
    ∃ a b : ℚ, poly l i z = C a + C b * X 0 ∧ (l.degree = 0 → b = 0) := by
  rcases hl with rfl | rfl
  · match i with
    | 0 => exact ⟨1, -1, by simp [poly, cg1]; ring, by decide⟩
    | 1 => exact ⟨0, 1, by simp [poly, cg1], by decide⟩
    | i + 2 => exact ⟨0, 0, by simp [poly, cg1], fun _ => rfl⟩
  · match i with
    | 0 => exact ⟨1, 0, by simp [poly, dg0], fun _ => rfl⟩
    | i + 1 => exact ⟨0, 0, by simp [poly, dg0], fun _ => rfl⟩

theorem poly_degree (l : Leaf) (hl : l = cg1 ∨ l = dg0) (i : Nat) (z : List Nat) : (poly l i z).totalDegree ≤ l.degree := by
  obtain ⟨a, b, h, hb⟩ := poly_lin l hl i z
  rw [h]
  rcases hl with rfl | rfl
  · refine (totalDegree_add _ _).trans (max_le ?_ ?_)
    · rw [totalDegree_C]; exact Nat.zero_le _
    · refine (totalDegree_mul _ _).trans ?_
      rw [totalDegree_C, totalDegree_X]
      decide
  · rw [hb rfl, C_0, zero_mul, add_zero, totalDegree_C]
    exact Nat.zero_le _

theorem poly_leaf (l : Leaf) (hl : l = cg1 ∨ l = dg0) : LeafPoly poly l := by
  intro i z
  have hc : l.cell.spatialDim = 1 := by rcases hl with rfl | rfl <;> rfl
  rw [hc]
  obtain ⟨a, b, h, -⟩ := poly_lin l hl i z
  rw [h]
  have hX : (X 0 : MvPolynomial ℕ ℚ) ∈ PolyLt ℚ 1 := X_mem_supported.2 (by simp)
  have hC : ∀ a : ℚ, (C a : MvPolynomial ℕ ℚ) ∈ PolyLt ℚ 1 := fun a => Subalgebra.algebraMap_mem _ a
  exact add_mem (hC a) (mul_mem (hC b) hX)

theorem leaf_ok (order : Nat) (l : Leaf) (hl : l = cg1 ∨ l = dg0) :
    RuleLeafOK fiat order l ∧ LeafIsPoly (leafVals fiat rules) poly l ∧ LeafOfDegree poly l := by
  have hc : l.cell = .simplex 1 := by rcases hl with rfl | rfl <;> rfl
  refine ⟨fun p hp => ?_, polyFiat_isPoly rules (poly_leaf l hl) fun x => rfl, poly_leaf l hl, fun i z m hm => ?_⟩
  · refine ⟨rfl, ⟨⟨rulePoints_known hp, (rulePoints_pts hp).1, ?_, ?_, .inl rfl⟩, ?_⟩⟩
    · exact fiatPoly_of rfl (fun _ => poly l) (fun x => x) (fun _ _ _ _ => rfl) (fun _ => poly_degree l hl)
        (fun _ _ _ _ _ => rfl)
    · rcases hl with rfl | rfl <;> decide
    · intro _ cls h; cases h
  · have h := (le_totalDegree hm).trans (poly_degree l hl i z)
    rw [hc]
    simp only [OfDegree, List.range_one, List.map_cons, List.map_nil, List.sum_cons, List.sum_nil, Nat.add_zero]
    refine Nat.le_trans ?_ h
    by_cases h0 : m 0 = 0
    · omega
    · exact Finset.single_le_sum (f := fun j => m j) (fun _ _ => Nat.zero_le _) (Finsupp.mem_support_iff.2 h0)

/-- `Q1` on the square. -/
def q1 : Elem := .flattened (.tensorProduct [.leaf cg1, .leaf cg1])

theorem q1_ok (order : Nat) : PolyElem fiat rules poly order .quad q1 (.leaf 1) [] where
  shaped := by
    simp only [q1, Shaped, List.mem_cons, List.not_mem_nil, or_false]
    exact ⟨by simp, fun f hf => by rcases hf with rfl | rfl <;> simp only [Shaped]⟩
  squares := ⟨⟨trivial, trivial, trivial⟩, rfl⟩
  leaves := ⟨leaf_ok order cg1 (.inl rfl), leaf_ok order cg1 (.inl rfl), trivial⟩
  cell := rfl
  degree := rfl
  shape := rfl

/-- Mass and stiffness matrices of `Q1` with the rule of degree two in each direction. -/
example (n : Nat) : ExactForms fiat rules poly exF "default" .quad (.int 2) 1 n q1 q1 [] [] :=
  C105_exact fiat rules poly exF "default" 3 exF_exact .quad trivial 1 n q1 q1 (.leaf 1) (.leaf 1) [] [] (q1_ok 1) (q1_ok 1)
    ⟨2, 2, rfl, by decide, by decide, .inl ⟨rfl, rfl⟩, .inl ⟨rfl, rfl⟩⟩

example (n : Nat) : ExactForms fiat rules poly exF "default" .quad (.int 3) 1 n q1 q1 [] [] :=
  C105_integer fiat rules poly exF "default" 3 exF_exact .quad trivial 1 n q1 q1 (.leaf 1) (.leaf 1) [] [] (q1_ok 1)
    (q1_ok 1) 3 (by decide) ⟨3, 3, rfl, by decide, by decide, .inl ⟨rfl, rfl⟩, .inl ⟨rfl, rfl⟩⟩

/-- `CG1 x DG0` on a product of intervals: degrees two and zero are enough. -/
def cd : Elem := .tensorProduct [.leaf cg1, .leaf dg0]

theorem cd_ok (order : Nat) : PolyElem fiat rules poly order (.prod [.simplex 1, .simplex 1]) cd (.node [.leaf 1, .leaf 0]) [] where
  shaped := by
    simp only [cd, Shaped, List.mem_cons, List.not_mem_nil, or_false]
    exact ⟨by simp, fun f hf => by rcases hf with rfl | rfl <;> simp only [Shaped]⟩
  squares := ⟨trivial, trivial, trivial⟩
  leaves := ⟨leaf_ok order cg1 (.inl rfl), leaf_ok order dg0 (.inr rfl), trivial⟩
  cell := rfl
  degree := rfl
  shape := rfl

example (n : Nat) : ExactForms fiat rules poly exF "default" (.prod [.simplex 1, .simplex 1]) (.tup [.int 2, .int 0]) 0 n
    cd cd [] [] :=
  C105_exact fiat rules poly exF "default" 3 exF_exact (.prod [.simplex 1, .simplex 1])
    (show NoHexL [.simplex 1, .simplex 1] from ⟨trivial, trivial, trivial⟩) 0 n cd cd (.node [.leaf 1, .leaf 0])
    (.node [.leaf 1, .leaf 0]) [] [] (cd_ok 0) (cd_ok 0)
    ⟨by simp, ⟨by decide, by decide, .inl ⟨rfl, rfl⟩⟩, ⟨by decide, by decide, .inl ⟨rfl, rfl⟩⟩, trivial⟩

/-- The integral of the square of the coordinate is a third. -/
theorem square_integral : cellIntegral (.simplex 1) (X 0 * X 0 : MvPolynomial ℕ ℚ) = 1 / 3 := by
  have h : (X 0 * X 0 : MvPolynomial ℕ ℚ) = monomial (Finsupp.single 0 2) 1 := by
    rw [X, monomial_mul, ← Finsupp.single_add]
    norm_num
  rw [h, cellIntegral, support_monomial, if_neg one_ne_zero, Finset.sum_singleton]
  simp [Cell.spatialDim, moment, Nat.factorial]
  norm_num

theorem cg1_ok (order : Nat) : PolyElem fiat rules poly order (.simplex 1) (.leaf cg1) (.leaf 1) [] where
  shaped := by simp only [Shaped]
  squares := trivial
  leaves := leaf_ok order cg1 (.inl rfl)
  cell := rfl
  degree := rfl
  shape := rfl

end ExactCases

open ExactCases in
/-- **C105**, lower degrees: with the rule of degree one, one less than the sum of the degrees, the mass matrix of
`CG1` on the interval is wrong. -/
theorem C105_too_low (n : Nat) :
    ¬ ExactForms fiat rules poly exF "default" (.simplex 1) (.int 1) 0 n (.leaf cg1) (.leaf cg1) [] [] := by
  rintro ⟨q, n', hq, W, n₁, hW, H⟩
  obtain ⟨q', k', hq', -, W', k₁, hW', H'⟩ := forms_sum fiat rules poly exF "default" 3 exF_exact (.simplex 1) 0 n
    (.leaf cg1) (.leaf cg1) _ _ [] [] (cg1_ok 0) (cg1_ok 0) (.int 1) ⟨by decide, by decide, .inl ⟨rfl, rfl⟩⟩
  rw [hq] at hq'
  cases hq'
  rw [hW] at hW'
  cases hW'
  obtain ⟨T₁, m₁, hT₁, H⟩ := H n' (Nat.le_refl _)
  obtain ⟨T₁', m₁', hT₁', H'⟩ := H' n' (Nat.le_refl _)
  rw [hT₁] at hT₁'
  cases hT₁'
  obtain ⟨T₂, m₂, hT₂, H⟩ := H n' (Nat.le_refl _)
  obtain ⟨T₂', m₂', hT₂', H'⟩ := H' n' (Nat.le_refl _)
  rw [hT₂] at hT₂'
  cases hT₂'
  obtain ⟨t, s, ht, hs, H⟩ := H [0] [0] rfl (Nat.le_refl _) rfl (Nat.le_refl _)
  obtain ⟨t', s', ht', hs', H'⟩ := H' [0] [0] rfl (Nat.le_refl _) rfl (Nat.le_refl _)
  rw [ht] at ht'
  cases ht'
  rw [hs] at hs'
  cases hs'
  have hr : InRange [1] (Elem.leaf cg1).indexShape := .cons (by decide) .nil
  have h := H [1] [] [1] [] hr .nil hr .nil fun _ => 0
  rw [H' [1] [] [1] [] hr .nil hr .nil fun _ => 0] at h
  have hp : partialD 0 [0] (treePoly poly (.leaf cg1) [1] []) = X 0 := rfl
  have hrule : q.pointSet.pts = [[1 / 2]] ∧ ∃ ps, q = .rule ps [1] := by
    have : makeQuadrature exF "default" (.simplex 1) (.int 1) n = .ok (.rule (.points .gaussLegendre [[1 / 2]] [⟨n, 1⟩]) [1], n + 1) := rfl
    rw [this] at hq
    cases hq
    exact ⟨rfl, _, rfl⟩
  obtain ⟨h1, ps, rfl⟩ := hrule
  simp only [QRule.pointSet] at h1
  rw [hp, square_integral] at h
  simp [iterSum, h1, evalAt] at h
  norm_num at h

end FInAT.Props
