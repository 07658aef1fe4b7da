import Verif.Lemmas.Ufl.Text
import Verif.Props.UflTree

/-!
# C101: the text of a UFL element evaluates to the element

`__repr__` is documented to give a "string for evaluation as Python object". The grammar of call expressions and their
evaluation are in `Verif/Spec/UflText.lean`, independently of `repr`.
-/

namespace FInAT.Props

open FInAT FInAT.Ufl

/-- The `repr` of every element that can be built is a call expression, and its evaluation gives the element. -/
theorem C101_eval {e : UElem} (h : Built e) : ∃ x : Expr, x.text = Ufl.repr e ∧ x.value = .ok (.elem e) :=
  ⟨expr e, expr_text h.good, expr_value h.good⟩

/-- There is no other way to read the text: every expression written like this evaluates to the element. -/
theorem C101_every_reading {e : UElem} (h : Built e) {x : Expr} (hx : x.text = Ufl.repr e) : x.value = .ok (.elem e) := by
  have heq : x.text ++ [] = (expr e).text ++ [] := by rw [hx, expr_text h.good]
  rw [(Expr.text_cancel x (expr e) heq).1]
  exact expr_value h.good

/-- The same for written text, provided different sequences of pieces are written differently. -/
theorem C101_written {render : List Tok → String} (hr : ∀ s t, render s = render t → s = t) {e : UElem} (h : Built e)
    {x : Expr} (hx : render x.text = render (Ufl.repr e)) :
    ∃ e', x.value = .ok (.elem e') ∧ ueq render e' e = true ∧ e' = e :=
  ⟨e, C101_every_reading h (hr _ _ hx), by simp [ueq], rfl⟩

/-- Call expressions can be read in one way only, whatever they are. -/
theorem C101_unambiguous {x y : Expr} (h : x.text = y.text) : x = y :=
  (Expr.text_cancel x y (r := []) (r' := []) (by rw [h])).1

namespace UflTextCases

open UflTreeCases

/-- `MixedElement(VectorElement(FiniteElement('Lagrange', triangle, 2), dim=2), FiniteElement('Lagrange', triangle, 1))`. -/
def thText : List Tok :=
  [.name "MixedElement", .lpar, .name "VectorElement", .lpar, .name "FiniteElement", .lpar, .str "Lagrange", .comma,
    .cell (some (.named .triangle)), .comma, .order (.int 2), .rpar, .comma, .kw "dim", .nat 2, .rpar, .comma,
    .name "FiniteElement", .lpar, .str "Lagrange", .comma, .cell (some (.named .triangle)), .comma, .order (.int 1),
    .rpar, .rpar]

theorem th_text : Ufl.repr taylorHood = thText := by
  simp [taylorHood, vec, lag, Ufl.repr, reprs, reprsTail, optKw, thText]

/-- A product with a cell of its own, inside a wrapper. -/
theorem product_built : ∃ e p, mkProduct [lag 1, lag 2] none = .ok p ∧ mkHDiv p = .ok e ∧ Built e := by
  refine ⟨_, _, rfl, rfl, .hdiv (.product (subs := [lag 1, lag 2]) (c := none) ?_ rfl) rfl⟩
  intro s hs
  simp only [List.mem_cons, List.not_mem_nil, or_false] at hs
  rcases hs with rfl | rfl
  · exact lag_built 1 (.inl rfl)
  · exact lag_built 2 (.inr rfl)

end UflTextCases

open UflTreeCases UflTextCases

/-- Non-vacuity: Taylor-Hood elements, symmetric tensors, wrapped products. -/
example : ∃ x : Expr, x.text = thText ∧ x.value = .ok (.elem taylorHood) := th_text ▸ C101_eval th_built
example := C101_eval sym_built
example : ∃ e p, mkProduct [lag 1, lag 2] none = .ok p ∧ mkHDiv p = .ok e ∧
    ∃ x : Expr, x.text = Ufl.repr e ∧ x.value = .ok (.elem e) := by
  obtain ⟨e, p, hp, he, h⟩ := product_built
  exact ⟨e, p, hp, he, C101_eval h⟩
example {render : List Tok → String} (hr : ∀ s t, render s = render t → s = t) :=
  C101_written hr th_built (x := expr taylorHood) (by rw [expr_text th_built.good])

/-- What evaluation does not give back is the short name used by `shortstr()`, which `repr` and `==` ignore: an element made
from "CG" on a quadrilateral is written as "Q", and "Q" has no short name. -/
theorem C101_short_name (quad variant : Option String) :
    newFe "CG" (.int 2) none quad variant (some (.named .quadrilateral)) =
      newFe "Q" (.int 2) none quad variant (some (.named .quadrilateral)) ∧
    (canonicalElementDescription "CG" (some (.named .quadrilateral)) (.int 2) none).map Desc.shortName = .ok (some "CG") ∧
    (canonicalElementDescription "Q" (some (.named .quadrilateral)) (.int 2) none).map Desc.shortName = .ok none := by
  refine ⟨?_, ?_, ?_⟩
  · rw [newFe, newFe, newFeOn, newFeOn, mkFe, mkFe, UflListCases.cg_quad, UflListCases.q_quad]
    rfl
  · rw [UflListCases.cg_quad]; rfl
  · rw [UflListCases.q_quad]; rfl

end FInAT.Props
