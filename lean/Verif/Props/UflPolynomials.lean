import Verif.Lemmas.Ufl.Polynomials
import Verif.Props.UflConstant
import Verif.Props.UflProduct

/-!
# C99: the embedded degrees of a UFL element bound the polynomials of its space
-/

namespace FInAT.Props

open FInAT.Ufl

/-- **C99** (upper bound, in part). Every function of an element is, in each component, a polynomial of total degree
at most `embedded_superdegree`, whatever spaces the simple elements have, if this holds of the simple elements and
those below products and restrictions have embedded degrees equal to their degree. `C99_product` and
`C99_restricted` show that the latter is needed. -/
theorem C99_super_partial {K : Type} [Field K] (G : Spaces K) {e : UElem} (h : Built e) (ht : ToldBelow e)
    (hs : ∀ l ∈ simpleParts e, ∀ q : Int, embeddedSuper l = .ok (.int q) → G.simple l ≤ Polys K q)
    {q : Int} (hq : embeddedSuper e = .ok (.int q)) : functions G e ≤ Polys K q :=
  (super_bounds h.good hs).1 ht q hq

/-- **C99** (lower bound, in part). All polynomials of total degree at most `embedded_subdegree`, in every component,
are functions of the element, if this holds of the simple elements, nothing in the tree takes functions away or
leaves components out, and no factor of a product has mixed parts. `C99_wrapped`, `C99_restricted_sub` and
`C99_mixed_factor` show that these hypotheses are needed. -/
theorem C99_sub_partial {K : Type} [Field K] (G : Spaces K) {e : UElem} (h : Built e) (hf : Filled e) (ht : ToldBelow e)
    (hs : ∀ l ∈ simpleParts e, ∀ p : Int, embeddedSub l = .ok (.int p) →
      AllPolys K (dimOf l) (valueSize l) p ≤ G.simple l)
    {p : Int} (hp : embeddedSub e = .ok (.int p)) : AllPolys K (dimOf e) (valueSize e) p ≤ functions G e :=
  sub_contains h.good hf ht hs p hp

namespace PolynomialExample

open ConstantExample

/-- All polynomials of the degree of a simple element. -/
noncomputable def full : Spaces ℚ where
  simple l := match embeddedSuper l with
    | .ok (.int q) => AllPolys ℚ (dimOf l) (valueSize l) q
    | _ => ⊥
  comps _ c := if c = 0 then some (false, 0) else none
  kept _ := ⊥

/-- The same, with restrictions that keep everything. -/
noncomputable def kept : Spaces ℚ := { full with kept := fun _ => ⊤ }

theorem full_super (l : UElem) (q : Int) (h : embeddedSuper l = .ok (.int q)) : full.simple l ≤ Polys ℚ q := by
  simp only [full, h]
  refine Submodule.span_le.2 ?_
  rintro _ ⟨α, j, -, -, hα, rfl⟩ c
  by_cases hc : c = j
  · simp only [term, hc, if_true]
    exact Submodule.subset_span ⟨α, hα, rfl⟩
  · simp only [term, if_neg hc]
    exact (Poly ℚ q).zero_mem

/-- Polynomials of degree zero are constant. -/
theorem poly_zero {p : List ℚ → ℚ} (h : p ∈ Poly ℚ 0) (x y : List ℚ) : p x = p y := by
  refine Submodule.span_induction (p := fun p _ => p x = p y) ?_ rfl ?_ ?_ h
  · rintro _ ⟨α, hα, rfl⟩
    have h0 : ∀ a ∈ α, a = 0 := by
      intro a ha
      have := List.le_sum_of_mem ha
      omega
    have : ∀ (α : List Nat) (x : List ℚ), (∀ a ∈ α, a = 0) → FInAT.Spec.monoVal x α = 1 := by
      intro α
      induction α with
      | nil => intro x _; exact monoVal_nil' x
      | cons a α ih =>
        intro x h
        cases x with
        | nil => rfl
        | cons y x =>
          rw [FInAT.Spec.monoVal, h a List.mem_cons_self, pow_zero, one_mul]
          exact ih x fun b hb => h b (List.mem_cons_of_mem _ hb)
    exact (this α x h0).trans (this α y h0).symm
  · intro a b _ _ ha hb
    rw [Pi.add_apply, Pi.add_apply, ha, hb]
  · intro a b _ hb
    rw [Pi.smul_apply, Pi.smul_apply, hb]

theorem full_sub {l : UElem} (h : Told l) (p : Int) (hp : embeddedSub l = .ok (.int p)) :
    AllPolys ℚ (dimOf l) (valueSize l) p ≤ full.simple l := by
  obtain ⟨k, -, h2, h3⟩ := h
  rw [h2] at hp
  cases hp
  simp only [full, h3]
  exact le_rfl

open UflTreeCases in
theorem lag_told (r : Int) (hr : r = 1 ∨ r = 2) : Told (lag r) := by
  rcases hr with rfl | rfl
  · exact ⟨1, rfl, rfl, rfl⟩
  · exact ⟨2, rfl, rfl, rfl⟩

theorem dg_told : Told dg := ⟨0, rfl, rfl, rfl⟩

open UflTreeCases in
/-- A vector of the Lagrange element of degree two, times that of degree one. -/
def prism : UElem := .product ⟨"TensorProductElement", some (.tensor [.named .triangle, .named .triangle]),
  .tuple [.int 2, .int 1], none, [2]⟩ [UflTreeCases.vec, lag 1]

open UflTreeCases in
theorem prism_built : Built prism :=
  .product (subs := [UflTreeCases.vec, lag 1]) (c := none) (by simpa using ⟨UflTreeCases.vec_built, lag_built 1 (.inl rfl)⟩) (by rfl)

open UflTreeCases in
theorem prism_told : ∀ l ∈ simpleParts prism, Told l := by
  intro l hl
  simp only [prism, UflTreeCases.vec, lag, simpleParts, simplePartss] at hl
  simp only [Nat.reduceEqDiff, if_false, List.append_nil, List.cons_append, List.nil_append,
    List.mem_cons, List.not_mem_nil, or_false] at hl
  rcases hl with rfl | rfl
  · exact lag_told 2 (.inr rfl)
  · exact lag_told 1 (.inl rfl)

open UflTreeCases in
theorem hood_told : ∀ l ∈ simpleParts taylorHood, Told l := by
  intro l hl
  simp only [taylorHood, UflTreeCases.vec, lag, simpleParts, simplePartss] at hl
  simp only [Nat.reduceEqDiff, if_false, List.append_nil, List.cons_append, List.nil_append,
    List.mem_cons, List.not_mem_nil, or_false] at hl
  rcases hl with rfl | rfl
  · exact lag_told 2 (.inr rfl)
  · exact lag_told 1 (.inl rfl)

end PolynomialExample

open PolynomialExample UflTreeCases in
/-- The hypotheses are met by the Taylor-Hood element: it has all polynomials of degree one, and no polynomials of a
degree above two. -/
example : AllPolys ℚ 2 3 1 ≤ functions full taylorHood ∧ functions full taylorHood ≤ Polys ℚ 2 :=
  ⟨C99_sub_partial full th_built
    (by simp [taylorHood, UflTreeCases.vec, lag, Filled, Filleds, dimOf, UElem.cell, UElem.base])
    (by simp [taylorHood, UflTreeCases.vec, lag, ToldBelow, ToldBelows])
    (fun l hl => full_sub (hood_told l hl)) (p := 1) (by rfl),
  C99_super_partial full th_built (by simp [taylorHood, UflTreeCases.vec, lag, ToldBelow, ToldBelows])
    (fun l _ => full_super l) (q := 2) (by rfl)⟩

open PolynomialExample UflTreeCases in
/-- ... and by a product with a vector valued factor. -/
example : AllPolys ℚ 4 2 1 ≤ functions full prism ∧ functions full prism ≤ Polys ℚ 3 :=
  have ht : ToldBelow prism := by
    have := prism_told
    rw [prism, simpleParts] at this
    rw [prism, ToldBelow]
    exact this
  ⟨C99_sub_partial full prism_built
    (by
      simp only [prism, UflTreeCases.vec, lag, Filled, Factors, Factor, and_true]
      rfl) ht (fun l hl => full_sub (prism_told l hl)) (p := 1) (by rfl),
  C99_super_partial full prism_built ht (fun l _ => full_super l) (q := 3) (by rfl)⟩

/-! ## Where the embedded degrees are wrong -/

open PolynomialExample ConstantExample in
/-- **C99** (limit). The embedded superdegree of a product is the sum of the degrees of the factors, not of their
superdegrees: a product of bubbles of degree zero and constants says zero, though the bubbles have superdegree two. -/
theorem C99_product : ∃ b, Built (.product b [bubble (.int 0), dg]) ∧
    embeddedSuper (bubble (.int 0)) = .ok (.int 2) ∧
    embeddedSuper (.product b [bubble (.int 0), dg]) = .ok (.int 0) ∧
    (∀ l q, embeddedSuper l = .ok (.int q) → full.simple l ≤ Polys ℚ q) ∧
    ¬ functions full (.product b [bubble (.int 0), dg]) ≤ Polys ℚ 0 := by
  refine ⟨⟨"TensorProductElement", some (.tensor [.named .triangle, .named .triangle]),
    .tuple [.int 0, .int 0], none, [2]⟩,
    .product (subs := [bubble (.int 0), dg]) (c := none) (by simpa using ⟨bubble_built, dg_built⟩) (by rfl),
    rfl, rfl, full_super, fun hle => ?_⟩
  have hm : (term [1] 0 : Fn ℚ) ∈ products full [bubble (.int 0), dg] := by
    rw [products]
    refine Submodule.subset_span ⟨term [1] 0, ?_, term [] 0, ?_, ?_⟩
    · rw [bubble, functions]
      exact Submodule.subset_span ⟨[1], 0, by decide, by decide, by decide, rfl⟩
    · rw [products]
      refine Submodule.subset_span ⟨term [] 0, ?_, term [] 0, ?_, ?_⟩
      · rw [dg, functions]
        exact Submodule.subset_span ⟨[], 0, by decide, by decide, by decide, rfl⟩
      · rw [products]
        exact Submodule.mem_span_singleton_self _
      · exact term_split 2 1 0 [] (by decide)
    · exact term_split 2 1 0 [1] (by decide)
  have := poly_zero (hle (by rw [functions]; exact hm) 0) [0] [1]
  simp [term, FInAT.Spec.monoVal] at this

open PolynomialExample ConstantExample in
/-- **C99** (limit). A restricted element says that its embedded superdegree is its degree, not the embedded
superdegree of the element that is restricted. -/
theorem C99_restricted : ∃ b, Built (.restricted b (bubble (.int 0)) "facet") ∧
    embeddedSuper (bubble (.int 0)) = .ok (.int 2) ∧
    embeddedSuper (.restricted b (bubble (.int 0)) "facet") = .ok (.int 0) ∧
    (∀ l q, embeddedSuper l = .ok (.int q) → kept.simple l ≤ Polys ℚ q) ∧
    ¬ functions kept (.restricted b (bubble (.int 0)) "facet") ≤ Polys ℚ 0 := by
  refine ⟨⟨"RestrictedElement", tri, .int 0, none, [2]⟩, .restricted (d := "facet") bubble_built (by rfl),
    rfl, rfl, full_super, fun hle => ?_⟩
  have hm : (term [1] 0 : Fn ℚ) ∈ functions kept (.restricted ⟨"RestrictedElement", tri, .int 0, none, [2]⟩
      (bubble (.int 0)) "facet") := by
    rw [functions]
    refine ⟨?_, trivial⟩
    rw [bubble, functions]
    exact Submodule.subset_span ⟨[1], 0, by decide, by decide, by decide, rfl⟩
  have := poly_zero (hle hm 0) [0] [1]
  simp [term, FInAT.Spec.monoVal] at this

open PolynomialExample UflTreeCases in
/-- **C99** (limit). A restriction says that it has all polynomials of the degree of the element that is restricted:
so does that of linear functions to the interior of the cell, which has no functions at all but zero. -/
theorem C99_restricted_sub : ∃ b, Built (.restricted b (lag 1) "interior") ∧
    embeddedSub (.restricted b (lag 1) "interior") = .ok (.int 1) ∧ Told (lag 1) ∧
    (∀ p, embeddedSub (lag 1) = .ok (.int p) → AllPolys ℚ 2 1 p ≤ full.simple (lag 1)) ∧
    functions full (.restricted b (lag 1) "interior") = ⊥ ∧
    ¬ AllPolys ℚ 2 1 1 ≤ functions full (.restricted b (lag 1) "interior") := by
  refine ⟨⟨"RestrictedElement", some (.named .triangle), .int 1, none, []⟩,
    .restricted (d := "interior") (lag_built 1 (.inl rfl)) (by rfl),
    rfl, lag_told 1 (.inl rfl), full_sub (lag_told 1 (.inl rfl)), by rw [functions]; exact inf_bot_eq _, fun hle => ?_⟩
  have hm := allPolys_le.1 hle [] 0 (by decide) (by decide) (by decide)
  rw [functions] at hm
  have h0 : (term [] 0 : Fn ℚ) = 0 := hm.2
  have := congrFun (congrFun h0 []) 0
  simp [term, FInAT.Spec.monoVal] at this

open PolynomialExample in
/-- **C99** (limit). H(div) wrappers have the embedded subdegree of the product they wrap, though all but one of
their components are zero: the first part of RTCF of degree one says that it has all constant fields. -/
theorem C99_wrapped : Built (rtcf 1 none) ∧ ∃ b s, rtcf 1 none = sumOf .interval .interval 1 2 (.hdiv b s)
      (.hdiv (wrapData .interval .interval 0 1 2) (twoFactors .interval .interval 0 1 [] (discLine 0 none) (contLine 1 none))) ∧
    embeddedSub (.hdiv b s) = .ok (.int 0) ∧ valueSize (.hdiv b s) = 2 ∧
    ¬ AllPolys ℚ 2 2 0 ≤ functions full (.hdiv b s) := by
  refine ⟨.fe (C59_rtcf (by decide) none none none), _, _, rfl, rfl, rfl, fun hle => ?_⟩
  have hm := allPolys_le.1 hle [] 1 (by decide) (by decide) (by decide)
  rw [functions] at hm
  obtain ⟨f, -, hf⟩ := hm
  have := congrFun (congrFun hf []) 1
  simp [term, FInAT.Spec.monoVal, place, full] at this

open PolynomialExample ConstantExample UflTreeCases in
/-- **C99** (limit). The degree of a mixed element is the largest of its parts, and products take the smallest degree
of the factors as their embedded subdegree: the second component of a product with a mixed element of linear functions
and constants does not have the linear functions it says. -/
theorem C99_mixed_factor : ∃ b b', Built (.product b [.mixed b' [lag 1, dg], lag 1]) ∧
    embeddedSub (.product b [.mixed b' [lag 1, dg], lag 1]) = .ok (.int 1) ∧ Told (lag 1) ∧ Told dg ∧
    (∀ l, Told l → ∀ p, embeddedSub l = .ok (.int p) → AllPolys ℚ (dimOf l) (valueSize l) p ≤ full.simple l) ∧
    ¬ AllPolys ℚ 4 2 1 ≤ functions full (.product b [.mixed b' [lag 1, dg], lag 1]) := by
  refine ⟨⟨"TensorProductElement", some (.tensor [.named .triangle, .named .triangle]),
    .tuple [.int 1, .int 1], none, [2]⟩, ⟨"Mixed", some (.named .triangle), .int 1, none, [2]⟩,
    .product (subs := [.mixed ⟨"Mixed", some (.named .triangle), .int 1, none, [2]⟩ [lag 1, dg], lag 1]) (c := none) ?_ (by rfl),
    rfl, lag_told 1 (.inl rfl), dg_told, fun l => full_sub, fun hle => ?_⟩
  · intro s hs
    simp only [List.mem_cons, List.not_mem_nil, or_false] at hs
    rcases hs with rfl | rfl
    · exact .mixed (subs := [lag 1, dg]) (by simpa using ⟨lag_built 1 (.inl rfl), dg_built⟩) (by rfl)
    · exact lag_built 1 (.inl rfl)
  · have hm := allPolys_le.1 hle [1] 1 (by decide) (by decide) (by decide)
    rw [functions, products] at hm
    have key : ∀ f : Fn ℚ, f ∈ functions full (.mixed ⟨"Mixed", some (.named .triangle), .int 1, none, [2]⟩ [lag 1, dg]) →
        f [0] 1 = f [1] 1 := by
      intro f hf
      rw [functions, blocks, blocks, blocks, sup_bot_eq] at hf
      obtain ⟨_, ⟨g, -, rfl⟩, _, ⟨h, hh, rfl⟩, rfl⟩ := Submodule.mem_sup.1 hf
      have hz : ∀ x, (block 0 (valueSize (lag 1)) g) x 1 = 0 := fun x => by
        have : ¬ (0 ≤ 1 ∧ 1 < 0 + valueSize (lag 1)) := by decide
        simp only [block, LinearMap.coe_mk, AddHom.coe_mk, if_neg this]
      have hc : ∀ x y, h x 0 = h y 0 := fun x y => by
        rw [dg, functions] at hh
        exact poly_zero (full_super dg 0 (by rfl) hh 0) x y
      have hb : ∀ x, (block (0 + valueSize (lag 1)) (valueSize dg) h) x 1 = h x 0 := fun x => by
        have : 0 + valueSize (lag 1) ≤ 1 ∧ 1 < 0 + valueSize (lag 1) + valueSize dg := by decide
        simp only [block, LinearMap.coe_mk, AddHom.coe_mk, if_pos this]
        rfl
      rw [Pi.add_apply, Pi.add_apply, Pi.add_apply, Pi.add_apply, hz, hz, hb, hb, hc [0] [1]]
    have : (term [1] 1 : Fn ℚ) [0] 1 = (term [1] 1 : Fn ℚ) [1] 1 := by
      refine Submodule.span_induction (p := fun (f : Fn ℚ) _ => f [0] 1 = f [1] 1) ?_ rfl ?_ ?_ hm
      · rintro _ ⟨f, hf, g, -, rfl⟩
        show f [0] 1 * g [] _ = f [1] 1 * g [] _
        rw [key f hf]
      · intro a b _ _ ha hb
        rw [Pi.add_apply, Pi.add_apply, Pi.add_apply, Pi.add_apply, ha, hb]
      · intro a b _ hb
        rw [Pi.smul_apply, Pi.smul_apply, Pi.smul_apply, Pi.smul_apply, hb]
    simp [term, FInAT.Spec.monoVal] at this

end FInAT.Props
