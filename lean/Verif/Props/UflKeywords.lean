import Verif.Lemmas.Ufl.KeywordParts
import Verif.Props.UflTree

/-!
# C79, C80, C81: `reconstruct` with keyword arguments, `variant()`
-/

namespace FInAT.Props

open FInAT.Ufl

/-! ## C79: degree, quadrature scheme and variant -/

/-- **C79** (replaced everywhere). When `e.reconstruct(degree=d, quad_scheme=q, variant=v)`
returns, with any of the three left out, the result is an element the constructors can
build, composed as `e` is; and each of its simple parts is the corresponding part of `e`
with these arguments, and only these, replaced. -/
theorem C79_replaced {e e' : UElem} (he : Built e) {d : Order} {q v : Option String}
    (h : reconstructWith (replacing d q v) e = .ok e') :
    Built e' ∧ Alike (Replaced d q v) e e' ∧
      List.Forall₂ (Replaced d q v) (leaves e) (leaves e') :=
  have ha := reconstructWith_alike he.good h
  ⟨reconstructWith_built _ e h, ha, alike_parts ha⟩

/-- **C79** (one call after another). Two calls in a row are one call with the arguments
of both, the later ones winning: the same element, or the same exception. -/
theorem C79_twice {e e1 : UElem} (he : Built e) {d d' : Order} {q q' v v' : Option String}
    (h : reconstructWith (replacing d q v) e = .ok e1) :
    reconstructWith (replacing d' q' v') e1 =
      reconstructWith (replacing (if d' = .none then d else d') (later q' q) (later v' v)) e := by
  rw [reconstructWith_twice he.good h, orElse_eq, or_eq, or_eq]
  rfl

/-- **C79** (nothing replaced). Without arguments the element itself is returned. -/
theorem C79_nothing {e : UElem} (he : Built e) : reconstructWith {} e = .ok e := by
  rw [reconstructWith_nothing]
  exact he.good.fixed

/-- **C79** (variants). `e.reconstruct(variant=v)` returns for every element and every
text `v`: an element with the same cell, degree, quadrature scheme and value shape, all of
whose simple parts have variant `v`. -/
theorem C79_variant {e : UElem} (he : Built e) (v : String) :
    ∃ e', reconstructWith (replacing .none none (some v)) e = .ok e' ∧
      e'.cell = e.cell ∧ e'.degree = e.degree ∧ e'.quadScheme = e.quadScheme ∧
      e'.shape = e.shape ∧ (∀ p ∈ leaves e', p.variant = some v) ∧
      (Unbroken e → e'.variant = some v) := by
  obtain ⟨e', h, hd⟩ := reconstructWith_variant (some v) he.good
  have hp : ∀ p ∈ leaves e', p.variant = some v := by
    have hf := (C79_replaced he h).2.2
    refine forall₂_right hf ?_
    intro a _ b hab
    match a, b, hab with
    | .fe .., .fe .., hab => rw [UElem.variant, hab.2.2.2.2.2.2.2]; simp
  exact ⟨e', h, hd.1.symm, hd.2.1.symm, hd.2.2.1.symm, hd.2.2.2.symm, hp,
    fun hu => variant_of_parts (alike_unbroken (C79_replaced he h).2.1 hu) hp⟩

/-! ## C80: variant() -/

/-- **C80**. When `e.variant()` returns a variant, all simple parts have it. -/
theorem C80_parts {e : UElem} {v : String} (h : e.variant = some v) :
    ∀ p ∈ leaves e, p.variant = some v := variant_parts h

/-- **C80** (partial). When all simple parts have the same variant, `e.variant()` returns
it, unless a broken element occurs. -/
theorem C80_common_partial {e : UElem} {v : Option String} (hu : Unbroken e)
    (h : ∀ p ∈ leaves e, p.variant = v) : e.variant = v := variant_of_parts hu h

/-- **C80** (limit). A broken element reports no variant, whatever is broken. -/
theorem C80_broken {e e' : UElem} (h : mkBroken e = .ok e') :
    leaves e' = leaves e ∧ e'.variant = none := by
  obtain ⟨sh, -, rfl⟩ := mkBroken_ok h
  rw [leaves, UElem.variant]
  exact ⟨rfl, rfl⟩

/-! ## C81: cells -/

/-- **C81** (the cell itself). When `e.reconstruct(cell=c)` returns, for an element that
has a cell, the result is an element on `c`. -/
theorem C81_cell {e e' : UElem} (he : Built e) {c : UCell} (hc : e.cell ≠ none)
    (h : reconstructWith { cell := some (some c) } e = .ok e') :
    Built e' ∧ e'.cell = some c :=
  ⟨reconstructWith_built _ e h, (reconstructWith_cell he.good h).1 hc⟩

/-- **C81** (partial). When no tensor product element occurs and the new cell is not a
product, all simple parts are moved to the new cell. -/
theorem C81_parts_partial {e e' : UElem} (he : NoProduct e) {n : CellName}
    (h : reconstructWith { cell := some (some (.named n)) } e = .ok e') :
    ∀ p ∈ leaves e', p.cell = some (.named n) := reconstructWith_parts he h

/-! ## Concrete cases -/

namespace UflKeywordCases

open UflTreeCases UflListCases

theorem lag_ok' (r : Int) (hr : r = 1 ∨ r = 2 ∨ r = 3) (q v : Option String) :
    newFe "Lagrange" (.int r) none q v (some (.named .triangle)) = .ok
      (.fe ⟨"Lagrange", some (.named .triangle), .int r, q, []⟩ (.int r) .h1 "identity" v
        (.int r)) := by
  have h : canonicalElementDescription "Lagrange" (some (.named .triangle)) (.int r) none
      = .ok ⟨"Lagrange", some "CG", .int r, [], .h1, "identity", .int r⟩ := by
    rw [canonical_eq_fast]
    rcases hr with rfl | rfl | rfl <;> decide +kernel
  rw [newFe, newFeOn, mkFe, h]
  rfl

/-- A Lagrange element of degree 3 and variant "integral". -/
def cubic : UElem :=
  .fe ⟨"Lagrange", some (.named .triangle), .int 3, none, []⟩ (.int 3) .h1 "identity"
    (some "integral") (.int 3)

/-- The Taylor-Hood element with both parts in degree 3 and another variant. -/
def cubicHood : UElem :=
  .mixed ⟨"Mixed", some (.named .triangle), .int 3, none, [3]⟩
    [.vector ⟨"Lagrange", some (.named .triangle), .int 3, none, [2]⟩ cubic 2 (some "integral"),
      cubic]

theorem lag_degree (r : Int) :
    reconstructWith (replacing (.int 3) none (some "integral")) (lag r) = .ok cubic := by
  rw [lag, reconstructWith]
  exact lag_ok' 3 (.inr (.inr rfl)) none (some "integral")

theorem th_degree :
    reconstructWith (replacing (.int 3) none (some "integral")) taylorHood = .ok cubicHood := by
  rw [taylorHood, reconstructWith, reconstructsWith, reconstructsWith, reconstructsWith, vec,
    reconstructWith, lag_degree, lag_degree]
  rfl

example : Alike (Replaced (.int 3) none (some "integral")) taylorHood cubicHood :=
  (C79_replaced th_built th_degree).2.1
example : reconstructWith (replacing .none none (some "spectral")) cubicHood =
    reconstructWith (replacing (.int 3) none (some "spectral")) taylorHood :=
  C79_twice th_built th_degree
example := C79_nothing th_built
example := C79_variant th_built "integral"
example : Unbroken taylorHood := by
  simp [taylorHood, vec, lag, Unbroken, Unbrokens]
example : leaves taylorHood = [lag 2, lag 1] := by
  simp [taylorHood, vec, lag, leaves, leavess]

/-- A vector of elements of variant "integral". -/
def integral : UElem :=
  .fe ⟨"Lagrange", some (.named .triangle), .int 2, none, []⟩ (.int 2) .h1 "identity"
    (some "integral") (.int 2)

theorem integral_built : Built integral := .fe (lag_ok' 2 (.inr (.inl rfl)) none (some "integral"))

example : integral.variant = some "integral" := by rw [integral, UElem.variant]
example := C80_parts (e := .vector ⟨"Lagrange", some (.named .triangle), .int 2, none, [2]⟩
  integral 2 none) (v := "integral") (by rw [UElem.variant, integral, UElem.variant])

/-- **C80** (counterexample). An element of variant "integral" loses it when broken. -/
example : ∃ e', mkBroken integral = .ok e' ∧ Built e' ∧
    (∀ p ∈ leaves e', p.variant = some "integral") ∧ e'.variant = none := by
  refine ⟨_, rfl, .broken integral_built rfl, ?_, by rw [UElem.variant]⟩
  simp [leaves, integral, UElem.variant]

/-- A linear element on intervals. -/
def segment : UElem :=
  .fe ⟨"Lagrange", some (.named .interval), .int 1, none, []⟩ (.int 1) .h1 "identity" none
    (.int 1)

theorem segment_ok (q v : Option String) :
    newFe "Lagrange" (.int 1) none q v (some (.named .interval)) =
    .ok (.fe ⟨"Lagrange", some (.named .interval), .int 1, q, []⟩ (.int 1) .h1 "identity" v
      (.int 1)) := by
  have h : canonicalElementDescription "Lagrange" (some (.named .interval)) (.int 1) none
      = .ok ⟨"Lagrange", some "CG", .int 1, [], .h1, "identity", .int 1⟩ := by
    rw [canonical_eq_fast]
    decide +kernel
  rw [newFe, newFeOn, mkFe, h]
  rfl

/-- The same with a quadrature scheme. -/
def segment' : UElem :=
  .fe ⟨"Lagrange", some (.named .interval), .int 1, some "default", []⟩ (.int 1) .h1 "identity"
    none (.int 1)

/-- The cell of a product of two intervals. -/
def square : UCell := .tensor [.named .interval, .named .interval]

/-- A product of two linear elements. -/
def bilinear : UElem :=
  .product ⟨"TensorProductElement", some square, .tuple [.int 1, .int 1], none, []⟩
    [segment, segment]

theorem bilinear_built : Built bilinear := by
  refine .product (subs := [segment, segment]) (c := none) ?_ rfl
  intro s hs
  simp only [List.mem_cons, List.not_mem_nil, or_false, or_self] at hs
  rw [hs]
  exact .fe (segment_ok none none)

theorem segment_again : reconstructWith {} segment = .ok segment := by
  rw [segment, reconstructWith]
  exact segment_ok none none

/-- A prism. -/
def prism : UCell := .tensor [.named .triangle, .named .interval]

theorem bilinear_moved : reconstructWith { cell := some (some prism) } bilinear =
    .ok (.product ⟨"TensorProductElement", some prism, .tuple [.int 1, .int 1], none, []⟩
      [segment, segment]) := by
  have h : reconstructsWith {} [segment, segment] = .ok [segment, segment] := by
    rw [reconstructsWith, reconstructsWith, reconstructsWith, segment_again]
    rfl
  rw [bilinear, reconstructWith]
  show (do mkProduct (← reconstructsWith {} [segment, segment]) (some prism)) = _
  rw [h]
  rfl

example := C81_cell bilinear_built (by rw [bilinear]; exact Option.some_ne_none _) bilinear_moved

/-- The linear element moved from triangles to quadrilaterals. -/
theorem lag_moved : ∃ e', reconstructWith { cell := some (some (.named .quadrilateral)) } (lag 1) =
    .ok e' := by
  have h : canonicalElementDescription "Lagrange" (some (.named .quadrilateral)) (.int 1) none
      = .ok ⟨"Q", some "CG", .int 1, [], .h1, "identity", .int 1⟩ := by
    rw [canonical_eq_fast]
    decide +kernel
  rw [lag, reconstructWith]
  show ∃ e', newFe "Lagrange" (.int 1) none none none (some (.named .quadrilateral)) = .ok e'
  rw [newFe, newFeOn, mkFe, h]
  exact ⟨_, rfl⟩

example : ∃ e', reconstructWith { cell := some (some (.named .quadrilateral)) } (lag 1) = .ok e' ∧
    ∀ p ∈ leaves e', p.cell = some (.named .quadrilateral) := by
  obtain ⟨e', h⟩ := lag_moved
  exact ⟨e', h, C81_parts_partial (by simp [lag, NoProduct]) h⟩

/-- A real number on a square. -/
def real (q : Option String) : UElem :=
  .fe ⟨"Real", some square, .int 0, q, []⟩ (.int 0) .hInf "identity" none (.int 0)

theorem real_ok (q : Option String) :
    newFe "Real" (.int 0) none q none (some square) = .ok (real q) := by
  have h : canonicalElementDescription "Real" (some square) (.int 0) none
      = .ok ⟨"Real", some "R", .int 0, [], .hInf, "identity", .int 0⟩ := by
    rw [canonical_eq_fast]
    decide +kernel
  rw [square] at h ⊢
  rw [newFe, newFeOn_other h (by decide), mkFe, h]
  rfl

/-- A bilinear element and a real number. -/
def withReal : UElem :=
  .mixed ⟨"Mixed", some square, .tuple [.int 1, .int 1], none, [2]⟩ [bilinear, real none]

theorem withReal_built : Built withReal := by
  refine .mixed (subs := [bilinear, real none]) ?_ rfl
  intro s hs
  simp only [List.mem_cons, List.not_mem_nil, or_false] at hs
  rcases hs with rfl | rfl
  · exact bilinear_built
  · exact .fe (real_ok none)

end UflKeywordCases

open UflKeywordCases

/-- **C81** (counterexample). `reconstruct(cell=...)` of a tensor product element changes
the cell of the product and leaves its factors where they are: a product of two linear
elements on intervals, asked for on a prism, is returned as an element on the prism with
both factors on intervals. -/
theorem C81_factors_stay :
    ∃ e e', Built e ∧ reconstructWith { cell := some (some prism) } e = .ok e' ∧
      e'.cell = some prism ∧ prism = .tensor [.named .triangle, .named .interval] ∧
      (leaves e').map UElem.cell = [some (.named .interval), some (.named .interval)] :=
  ⟨bilinear, _, bilinear_built, bilinear_moved, rfl, rfl, by
    simp [leaves, leavess, segment, UElem.cell, UElem.base]⟩

/-- **C79** (limit). A quadrature scheme is not accepted by every element: products forget
the scheme, so a product and a real number side by side then disagree, and
`reconstruct(quad_scheme=...)` raises `ValueError`. -/
theorem C79_scheme_rejected :
    ∃ e, Built e ∧ reconstructWith (replacing .none (some "default") none) e =
      .error .valueError := by
  refine ⟨withReal, withReal_built, ?_⟩
  have h1 : reconstructWith (replacing .none (some "default") none) (real none) =
      .ok (real (some "default")) := by
    rw [real, reconstructWith]
    exact real_ok (some "default")
  have h2 : reconstructWith (replacing .none (some "default") none) segment = .ok
      segment' := by
    rw [segment, reconstructWith]
    exact segment_ok (some "default") none
  rw [withReal, reconstructWith, reconstructsWith, reconstructsWith, reconstructsWith, h1,
    bilinear, reconstructWith]
  have h3 : reconstructsWith { replacing .none (some "default") none with cell := none }
      [segment, segment] = .ok [segment', segment'] := by
    show reconstructsWith (replacing .none (some "default") none) [segment, segment] = _
    rw [reconstructsWith, reconstructsWith, reconstructsWith, h2]
    rfl
  rw [h3]
  rfl

end FInAT.Props
