import Verif.Lemmas.Ufl.Constant
import Verif.Props.UflTree

/-!
# C74, C75: cellwise constant elements and pullbacks of UFL elements
-/

namespace FInAT.Props

open FInAT.Ufl

/-! ## C74: elements that say they are constant on cells -/

/-- **C74** (soundness, in part). When `is_cellwise_constant()` returns `True` then the
functions of every simple element in the tree are constant on cells, if these elements
have a degree and are not bubbles, whose degree says nothing. What is missing is shown by
`C74_bubble` and `C74_broken_sum`: without these hypotheses the claim is false. -/
theorem C74_sound_partial {e : UElem} (h : Built e) (hg : ∀ l ∈ simpleParts e, Graded l)
    (hc : isConstant e = true) : ∀ l ∈ simpleParts e, ConstantPart l :=
  constant_parts h.good hg hc

/-- **C74** (completeness, in part). An element made of simple elements of degree zero,
without products, nodal enrichments and empty parts, says that it is constant on cells.
What is missing is shown by `C74_product`. -/
theorem C74_complete_partial {e : UElem} (h : Built e) (hu : Unfactored e)
    (hz : ∀ l ∈ simpleParts e, l.degree = .int 0) : isConstant e = true :=
  (zero_constant h.good hu hz).2

namespace ConstantExample

open UflListCases

/-- The triangle. -/
def tri : Option UCell := some (.named .triangle)

/-- `FiniteElement("DG", triangle, 0)`. -/
def dg : UElem := .fe ⟨"Discontinuous Lagrange", tri, .int 0, none, []⟩ (.int 0) .l2 "identity"
  none (.int 0)

/-- `FiniteElement("Real", triangle, 0)`. -/
def real : UElem := .fe ⟨"Real", tri, .int 0, none, []⟩ (.int 0) .hInf "identity" none (.int 0)

/-- `FiniteElement("Bernardi-Raugel Bubble", triangle, degree)`. -/
def bubble (o : Order) : UElem :=
  .fe ⟨"Bernardi-Raugel Bubble", tri, o.toDeg, none, [2]⟩ o .h1 "contravariant Piola" none (.int 2)

theorem dg_built : Built dg := by
  have h : canonicalElementDescription "DG" tri (.int 0) none
      = .ok ⟨"Discontinuous Lagrange", some "DG", .int 0, [], .l2, "identity", .int 0⟩ := by
    rw [canonical_eq_fast]
    decide +kernel
  exact .fe (f := "DG") (c := tri) (o := (.int 0)) (k := none) (q := none) (v := none)
    (by
      rw [tri, newFe, newFeOn, mkFe]
      change (canonicalElementDescription "DG" tri (.int 0) none >>= _) = _
      rw [h]; rfl)

theorem real_built : Built real := by
  have h : canonicalElementDescription "Real" tri (.int 0) none
      = .ok ⟨"Real", some "R", .int 0, [], .hInf, "identity", .int 0⟩ := by
    rw [canonical_eq_fast]
    decide +kernel
  exact .fe (f := "Real") (c := tri) (o := (.int 0)) (k := none) (q := none) (v := none)
    (by
      rw [tri, newFe, newFeOn, mkFe]
      change (canonicalElementDescription "Real" tri (.int 0) none >>= _) = _
      rw [h]; rfl)

theorem bubble_built : Built (bubble (.int 0)) := by
  have h : canonicalElementDescription "BRB" tri (.int 0) none
      = .ok ⟨"Bernardi-Raugel Bubble", some "BRB", .int 0, [2], .h1, "contravariant Piola", .int 2⟩ := by
    rw [canonical_eq_fast]
    decide +kernel
  exact .fe (f := "BRB") (c := tri) (o := (.int 0)) (k := none) (q := none) (v := none)
    (by
      rw [tri, newFe, newFeOn, mkFe]
      change (canonicalElementDescription "BRB" tri (.int 0) none >>= _) = _
      rw [h]; rfl)

theorem bubble_built' : Built (bubble .none) := by
  have h : canonicalElementDescription "BRB" tri .none none
      = .ok ⟨"Bernardi-Raugel Bubble", some "BRB", .none, [2], .h1, "contravariant Piola", .int 2⟩ := by
    rw [canonical_eq_fast]
    decide +kernel
  exact .fe (f := "BRB") (c := tri) (o := .none) (k := none) (q := none) (v := none)
    (by
      rw [tri, newFe, newFeOn, mkFe]
      change (canonicalElementDescription "BRB" tri .none none >>= _) = _
      rw [h]; rfl)

/-- `VectorElement(FiniteElement("DG", triangle, 0))`. -/
def vec : UElem := .vector ⟨"Discontinuous Lagrange", tri, .int 0, none, [2]⟩ dg 2 none

theorem vec_built : Built vec := .vector (dim := none) dg_built (by rfl)

/-- A broken mixed element of piecewise constant vectors and a global constant. -/
def brokenMixed : UElem :=
  .broken ⟨"BrokenElement", tri, .int 0, none, [3]⟩ (.mixed ⟨"Mixed", tri, .int 0, none, [3]⟩ [vec, real])

theorem brokenMixed_built : Built brokenMixed :=
  .broken (.mixed (subs := [vec, real]) (by simpa using ⟨vec_built, real_built⟩) (by rfl)) (by rfl)

end ConstantExample

open ConstantExample in
/-- The hypotheses of C74 are met by a broken mixed element of three simple ones. -/
example : Built brokenMixed ∧ (∀ l ∈ simpleParts brokenMixed, Graded l) ∧
    isConstant brokenMixed = true ∧ Unfactored brokenMixed ∧
    (∀ l ∈ simpleParts brokenMixed, l.degree = .int 0) ∧ (simpleParts brokenMixed).length = 2 := by
  refine ⟨brokenMixed_built, ?_, rfl, ?_, ?_, rfl⟩
  · intro l hl
    simp only [brokenMixed, vec, dg, real, simpleParts, simplePartss] at hl
    simp only [Nat.reduceEqDiff, if_false, List.append_nil, List.cons_append, List.nil_append,
      List.mem_cons, List.not_mem_nil, or_false] at hl
    rcases hl with rfl | rfl <;> exact ⟨by simp [UElem.degree, UElem.base], by decide, by decide⟩
  · simp [brokenMixed, vec, dg, real, Unfactored, Unfactoreds]
  · intro l hl
    simp only [brokenMixed, vec, dg, real, simpleParts, simplePartss] at hl
    simp only [Nat.reduceEqDiff, if_false, List.append_nil, List.cons_append, List.nil_append,
      List.mem_cons, List.not_mem_nil, or_false] at hl
    rcases hl with rfl | rfl <;> rfl

open ConstantExample in
/-- **C74** (limit). Bubbles that are given the degree zero say that they are constant on
cells, although they are of degree two on triangles. -/
theorem C74_bubble : Built (bubble (.int 0)) ∧ isConstant (bubble (.int 0)) = true ∧
    embeddedSuper (bubble (.int 0)) = .ok (.int 2) := ⟨bubble_built, rfl, rfl⟩

open ConstantExample in
/-- **C74** (limit). The degree of a sum leaves out elements without a degree: the sum of
piecewise constant vectors and bubbles is not constant on cells, and says so; the broken
version of the sum says that it is constant. -/
theorem C74_broken_sum : ∃ b b', Built (.broken b (.enriched b' false [vec, bubble .none])) ∧
    isConstant (.broken b (.enriched b' false [vec, bubble .none])) = true ∧
    isConstant (.enriched b' false [vec, bubble .none]) = false ∧
    ¬ ConstantPart (bubble .none) := by
  refine ⟨⟨"BrokenElement", tri, .int 0, none, [2]⟩, ⟨"EnrichedElement", tri, .int 0, none, [2]⟩,
    .broken (.enriched (n := false) (subs := [vec, bubble .none])
      (by simpa using ⟨vec_built, bubble_built'⟩) (by rfl)) (by rfl), rfl, rfl, ?_⟩
  rintro (h | h)
  · exact absurd h (by decide)
  · cases h

/-- **C74** (limit). No product says that it is constant on cells, as its degree is a tuple;
the embedded superdegree of a product of elements of degree zero is zero all the same. -/
theorem C74_product {b : Base} {subs : List UElem} (h : Built (.product b subs)) :
    isConstant (.product b subs) = false ∧
    ((∀ s ∈ subs, s.degree = .int 0) → embeddedSuper (.product b subs) = .ok (.int 0)) := by
  have hd := (product_facts h.good).1
  constructor
  · rw [isConstant, hd]; rfl
  · intro hz
    rw [embeddedSuper, hd]
    simp only
    have : ∀ l : List UElem, (∀ s ∈ l, s.degree = .int 0) → pySum (l.map UElem.degree) = .ok (.int 0) := by
      intro l
      induction l with
      | nil => intro _; rfl
      | cons x xs ih =>
        intro hl
        rw [List.map_cons, pySum, ih fun s hs => hl s (by simp [hs]), hl x (by simp)]
        rfl
    exact this subs hz

open ConstantExample in
/-- There is a product of two elements of degree zero. -/
example : ∃ b, Built (.product b [dg, dg]) ∧ ∀ s ∈ [dg, dg], s.degree = .int 0 :=
  ⟨⟨"TensorProductElement", some (.tensor [.named .triangle, .named .triangle]),
    .tuple [.int 0, .int 0], none, []⟩,
    .product (subs := [dg, dg]) (c := none) (by simpa using dg_built) (by rfl), by simp [dg, UElem.degree, UElem.base]⟩

/-! ## C75: pullbacks -/

/-- **C75** (simple elements). Every simple element that can be built has a pullback, the
one that its mapping names. -/
theorem C75_simple {b : Base} {o : Order} {so : Sobolev} {m : String} {v : Option String}
    {emb : Order} (h : Built (.fe b o so m v emb)) :
    ∃ p, pullback (.fe b o so m v emb) = .ok p ∧ p.name = some m := by
  rcases mapping_known h.good (by simp [NoRemap]) with ⟨p, hp⟩ | hm
  · have hp' : pullbackOf m = .ok p := hp
    exact ⟨p, hp', pullbackOf_iff.1 hp'⟩
  · obtain ⟨d, f, o', k, hd, -, -, -, hm', -⟩ := fe_desc h.good
    obtain ⟨e, hreg, -, -, -, -, -, -, hmap⟩ := C50_sound hd
    obtain ⟨p, hp⟩ := registered_mapping hreg
    rw [← hmap, ← hm'] at hp
    exact ⟨p, hp, pullbackOf_iff.1 hp⟩

/-- **C75** (composed elements). A pullback that performs a single mapping is the pullback
of every part of the element that has a mapping of its own, if elements that are added have
the same mapping. `C75_sum` shows that this hypothesis is needed. -/
theorem C75_parts_partial {e : UElem} (h : Built e) (ha : SumsAgree e) {p : Pull} {m : String}
    (hp : pullback e = .ok p) (hm : p.name = some m) :
    ∀ l ∈ mappedParts e, l.mapping = m ∧ pullback l = .ok p := by
  have key : ∀ {e : UElem}, Good e → SumsAgree e → pullback e = .ok p →
      ∀ l ∈ mappedParts e, l.mapping = m := by
    intro e hg
    induction hg with
    | @intro e fixed sub ih =>
    have hg : Good e := .intro fixed sub
    intro ha hp
    have hne : m ≠ "undefined" ∧ m ≠ "symmetries" := by
      constructor <;> rintro rfl <;> cases p <;> simp [Pull.name] at hm
    have plain : pullbackOf e.mapping = .ok p → ∀ l ∈ mappedParts e, l.mapping = m := by
      intro hq
      have := pullbackOf_iff.1 hq
      rw [hm] at this
      exact mapping_parts hg ha (Option.some.inj this).symm hne.1 hne.2
    match e, hg, ih, ha, hp, plain with
    | .mixed b subs, hg, ih, ha, hp, plain =>
      rw [pullback] at hp
      cases hp
      cases hm
    | .vector b s dim v, hg, ih, ha, hp, plain =>
      rw [pullback] at hp
      rw [SumsAgree] at ha
      rw [mappedParts]
      exact ih s (by simp [children]) ha hp
    | .tensor b s shape sym number count mp v, hg, ih, ha, hp, plain =>
      rw [pullback] at hp
      rw [SumsAgree] at ha
      rw [mappedParts]
      split at hp
      · exact ih s (by simp [children]) ha hp
      · obtain ⟨⟨d, n⟩, -, hp⟩ := bind_ok hp
        cases hp
        cases hm
    | .fe .., hg, ih, ha, hp, plain => exact plain hp
    | .product .., hg, ih, ha, hp, plain => exact plain hp
    | .enriched .., hg, ih, ha, hp, plain => exact plain hp
    | .hdiv .., hg, ih, ha, hp, plain => exact plain hp
    | .hcurl .., hg, ih, ha, hp, plain => exact plain hp
    | .withMapping .., hg, ih, ha, hp, plain => exact plain hp
    | .restricted .., hg, ih, ha, hp, plain => exact plain hp
    | .broken .., hg, ih, ha, hp, plain => exact plain hp
  intro l hl
  have hlm := key h.good ha hp l hl
  refine ⟨hlm, ?_⟩
  have hq : pullbackOf l.mapping = .ok p := by rw [hlm]; exact pullbackOf_iff.2 hm
  rw [mappedParts_own hl, hq]

/-- **C75** (what is refused). Where no mapping is replaced by hand, an element that is
neither mixed nor a vector or tensor has a pullback, or raises `ValueError`; the latter
exactly when its mapping is undefined, or that of a tensor with symmetries. -/
theorem C75_raises {e : UElem} (h : Built e) (hn : NoRemap e) (hs : ¬ HasSubs e) :
    (pullback e = .error .valueError ∧ (e.mapping = "undefined" ∨ e.mapping = "symmetries")) ∨
    (∃ p, pullback e = .ok p ∧ p.name = some e.mapping ∧
      ¬ (e.mapping = "undefined" ∨ e.mapping = "symmetries")) := by
  have hp : pullback e = pullbackOf e.mapping := by
    cases e <;> first | rfl | exact absurd trivial hs
  rw [hp]
  rcases mapping_known h.good hn with ⟨p, hp⟩ | hm | hm
  · refine .inr ⟨p, hp, pullbackOf_iff.1 hp, ?_⟩
    rintro (hm | hm) <;> rw [hm] at hp <;> cases hp
  · exact .inl ⟨by rw [hm]; rfl, .inl hm⟩
  · exact .inl ⟨by rw [hm]; rfl, .inr hm⟩

/-- **C75** (vectors and tensors). Vectors and tensors without symmetries have the pullback of
their components, mixed elements one of their own. -/
theorem C75_components (b : Base) (s : UElem) (subs : List UElem) (dim count : Nat)
    (shape : List Nat) (number : Dict (List Nat) Nat) (m : String) (v : Option String) :
    pullback (.vector b s dim v) = pullback s ∧
    pullback (.tensor b s shape [] number count m v) = pullback s ∧
    pullback (.mixed b subs) = .ok (.mixed (.mixed b subs)) := by
  refine ⟨by rw [pullback], ?_, by rw [pullback]⟩
  rw [pullback, if_pos (by rfl)]

namespace ConstantExample

open UflListCases

/-- `FiniteElement("RT", triangle, 1)`. -/
def rt : UElem := .fe ⟨"Raviart-Thomas", tri, .int 1, none, [2]⟩ (.int 1) .hDiv
  "contravariant Piola" none (.int 1)

theorem rt_built : Built rt := by
  have h : canonicalElementDescription "RT" tri (.int 1) none
      = .ok ⟨"Raviart-Thomas", some "RT", .int 1, [2], .hDiv, "contravariant Piola", .int 1⟩ := by
    rw [canonical_eq_fast]
    decide +kernel
  exact .fe (f := "RT") (c := tri) (o := (.int 1)) (k := none) (q := none) (v := none)
    (by
      rw [tri, newFe, newFeOn, mkFe]
      change (canonicalElementDescription "RT" tri (.int 1) none >>= _) = _
      rw [h]; rfl)

/-- `VectorElement(RestrictedElement(FiniteElement("RT", triangle, 1), "facet"))`. -/
def facets : UElem := .vector ⟨"RestrictedElement", tri, .int 1, none, [2, 2]⟩
  (.restricted ⟨"RestrictedElement", tri, .int 1, none, [2]⟩ rt "facet") 2 none

theorem facets_built : Built facets :=
  .vector (dim := none) (.restricted (d := "facet") rt_built (by rfl)) (by rfl)

end ConstantExample

open ConstantExample in
/-- The hypotheses of C75 are met by a vector of restricted elements. -/
example : Built facets ∧ SumsAgree facets ∧ pullback facets = .ok .contravariantPiola ∧
    Pull.contravariantPiola.name = some "contravariant Piola" ∧ mappedParts facets = [rt] ∧
    NoRemap facets :=
  ⟨facets_built, by simp [facets, rt, SumsAgree], rfl, rfl, rfl, by simp [facets, rt, NoRemap]⟩

open ConstantExample in
/-- **C75** (limit). A sum takes the pullback of its first part only: in the sum of
piecewise constant vectors and bubbles all values are taken over as they are, though the
bubbles are to be mapped by the Piola transformation. -/
theorem C75_sum : ∃ b, Built (.enriched b false [vec, bubble .none]) ∧
    pullback (.enriched b false [vec, bubble .none]) = .ok .identity ∧
    pullback vec = .ok .identity ∧ pullback (bubble .none) = .ok .contravariantPiola :=
  ⟨⟨"EnrichedElement", tri, .int 0, none, [2]⟩,
    .enriched (n := false) (subs := [vec, bubble .none]) (by simpa using ⟨vec_built, bubble_built'⟩) (by rfl), rfl, rfl, rfl⟩

open ConstantExample in
/-- **C75** (limit). A mixed element of a Raviart-Thomas element and a scalar one has a
pullback, the broken version of it has none. -/
theorem C75_broken_mixed : ∃ b b', Built (.broken b (.mixed b' [rt, dg])) ∧
    pullback (.mixed b' [rt, dg]) = .ok (.mixed (.mixed b' [rt, dg])) ∧
    pullback (.broken b (.mixed b' [rt, dg])) = .error .valueError :=
  ⟨⟨"BrokenElement", tri, .int 1, none, [3]⟩, ⟨"Mixed", tri, .int 1, none, [3]⟩,
    .broken (.mixed (subs := [rt, dg]) (by simpa using ⟨rt_built, dg_built⟩) (by rfl)) (by rfl), rfl, rfl⟩

end FInAT.Props
