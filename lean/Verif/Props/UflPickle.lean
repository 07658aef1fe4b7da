import Verif.Lemmas.Ufl.Pickle
import Verif.Props.UflTree

/-!
# C106: pickling and copying UFL elements
-/

namespace FInAT.Props

open FInAT.Ufl

/-- **C106** (partial: elements without `WithMapping`). An element that is pickled and
loaded, or deeply copied, comes back as it was; so it compares equal to the original. -/
theorem C106_reload_partial (render : List Tok → String) {limit : Nat} (hl : 0 < limit)
    {e : UElem} (h : Built e) (hr : NoRemap e) :
    reload limit e = .ok e ∧ ∃ e', reload limit e = .ok e' ∧ ueq render e' e = true :=
  ⟨reload_ok hl e h.good hr, e, reload_ok hl e h.good hr, by simp [ueq]⟩

/-- **C106** is false of the code when a `WithMapping` occurs anywhere in the element:
whatever the recursion limit, loading raises `RecursionError`. -/
theorem C106_remapped {limit : Nat} (hl : 0 < limit) {e : UElem} (h : Built e)
    (hr : ¬ NoRemap e) : reload limit e = .error .runtimeError :=
  reload_remapped hl e h.good hr

/-- **C106** (shallow copies, partial). `copy.copy(e)` gives the element back, unless the
element itself is a `WithMapping`; what it is made of does not matter. -/
theorem C106_copy_partial {limit : Nat} (hl : 0 < limit) {e : UElem} (h : Built e)
    (hr : ∀ s m, e ≠ .withMapping s m) : copyOf limit e = .ok e := by
  match e, h, hr with
  | .fe b o so m v emb, h, _ => exact reloadFe_ok hl h.good
  | .withMapping s m, _, hr => exact absurd rfl (hr s m)
  | .mixed .., _, _ => exact putState_plain hl _
  | .vector .., _, _ => exact putState_plain hl _
  | .tensor .., _, _ => exact putState_plain hl _
  | .product .., _, _ => exact putState_plain hl _
  | .enriched .., _, _ => exact putState_plain hl _
  | .hdiv .., _, _ => exact putState_plain hl _
  | .hcurl .., _, _ => exact putState_plain hl _
  | .restricted .., _, _ => exact putState_plain hl _
  | .broken .., _, _ => exact putState_plain hl _

/-- **C106** (shallow copies of `WithMapping`). They raise `RecursionError`. -/
theorem C106_copy_remapped (limit : Nat) (e : UElem) (m : String) :
    copyOf limit (.withMapping e m) = .error .runtimeError :=
  putState_remapped limit _

/-- **C106** (what `__new__` does). Calling `FiniteElement` with the arguments that are
stored for an element creates a new object, to be filled, and not one of the products that
stand for families on product cells. -/
theorem C106_new {b : Base} {o : Order} {so : Sobolev} {m : String} {v : Option String}
    {emb : Order} (h : Built (.fe b o so m v emb)) :
    feNew b.family o none b.quadScheme v b.cell = .ok none := by
  have hf := h.good.fixed
  unfold Fixed at hf
  rw [reconstruct, newFe_eq] at hf
  obtain ⟨r, hr, hf⟩ := FInAT.Ufl.bind_ok hf
  cases r with
  | none => exact hr
  | some e =>
    exfalso
    cases hf
    rcases feNew_some hr with ⟨_, _, h⟩ | ⟨_, _, h⟩ <;> cases h

/-! ## Examples -/

namespace PickleCases

open UflListCases UflTreeCases

/-- The cell interval × interval. -/
def square : UCell := .tensor [.named .interval, .named .interval]

theorem real_desc : canonicalElementDescription "Real" (some square) (.int 0) none
    = .ok ⟨"Real", some "R", .int 0, [], .hInf, "identity", .int 0⟩ := by
  rw [canonical_eq_fast]; decide +kernel

/-- Constants on a product cell: a simple element, whose `__new__` describes the family. -/
def constants : UElem :=
  .fe ⟨"Real", some square, .int 0, none, []⟩ (.int 0) .hInf "identity" none (.int 0)

theorem constants_built : Built constants := by
  refine .fe (f := "Real") (o := .int 0) (k := none) (q := none) (v := none)
    (c := some square) ?_
  rw [newFe, square, newFeOn_other (by exact real_desc) (by decide), mkFe,
    show canonicalElementDescription "Real" (some (.tensor _)) (.int 0) none = _ from real_desc]
  rfl

example : reload 1 constants = .ok constants :=
  (C106_reload_partial (fun _ => "") (by decide) constants_built trivial).1
example : feNew "Real" (.int 0) none none none (some square) = .ok none :=
  C106_new constants_built

/-- The Taylor–Hood element is loaded as it was. -/
example : reload 1000 taylorHood = .ok taylorHood :=
  (C106_reload_partial (fun _ => "") (by decide) th_built (by
    simp [taylorHood, vec, lag, NoRemap, NoRemaps])).1

/-- The same with another mapping cannot be loaded. -/
example : ∃ e, mkWithMapping taylorHood "identity" = .ok e ∧ Built e ∧
    reload 1000 e = .error .runtimeError :=
  ⟨_, rfl, .withMapping (m := "identity") th_built rfl,
    C106_remapped (by decide) (.withMapping (m := "identity") th_built rfl) (by simp [NoRemap])⟩

end PickleCases

end FInAT.Props
