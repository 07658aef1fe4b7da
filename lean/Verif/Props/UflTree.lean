import Verif.Lemmas.Ufl.Repr
import Verif.Lemmas.Ufl.Render
import Mathlib.Data.String.Basic

/-!
# C48, C52, C53, C64: equality and reconstruction of UFL elements
-/

namespace FInAT.Props

open FInAT.Ufl

/-! ## C52: reconstruct() is the identity -/

/-- **C52**. Every element that the constructors can build is returned, unchanged, by its
own `reconstruct()`. -/
theorem C52_reconstruct {e : UElem} (h : Built e) : reconstruct e = .ok e := h.good.fixed

/-- **C52** (equality). In particular `e.reconstruct() == e`. -/
theorem C52_reconstruct_eq (render : List Tok → String) {e : UElem} (h : Built e) :
    ∃ e', reconstruct e = .ok e' ∧ ueq render e' e = true :=
  ⟨e, C52_reconstruct h, by simp [ueq]⟩

/-! ## C64: equal elements are the same element -/

/-- **C64**. Two elements that compare equal are the same: same class, cell, degree,
value shape, quadrature scheme, variant, mapping, embedded degrees and parts. The text of
an element is assumed to determine its pieces. -/
theorem C64_equal_elements {render : List Tok → String}
    (hr : ∀ s t, render s = render t → s = t) {a b : UElem} (ha : Built a) (hb : Built b)
    (h : ueq render a b = true) : a = b := by
  simp only [ueq, Bool.and_eq_true, beq_iff_eq] at h
  exact (repr_unique a b [] [] ha.good hb.good (by rw [hr _ _ h.2])).1

/-! ## C48: equality, hash and order -/

/-- **C48** (equivalence). `==` is reflexive, symmetric and transitive and `!=` is its
negation. -/
theorem C48_equivalence (render : List Tok → String) :
    Equivalence (fun a b => ueq render a b = true) ∧
    ∀ a b, (une render a b = true ↔ ¬ ueq render a b = true) := by
  refine ⟨⟨fun a => by simp [ueq], ?_, ?_⟩, fun a b => by simp [une]⟩
  · intro a b h
    simp only [ueq, Bool.and_eq_true, beq_iff_eq] at h ⊢
    exact ⟨h.1.symm, h.2.symm⟩
  · intro a b c h1 h2
    simp only [ueq, Bool.and_eq_true, beq_iff_eq] at h1 h2 ⊢
    exact ⟨h1.1.trans h2.1, h1.2.trans h2.2⟩

/-- **C48** (hash). Equal elements have equal hashes. -/
theorem C48_hash (render : List Tok → String) (md5 : String → Nat) {a b : UElem}
    (h : ueq render a b = true) : uhash render md5 a = uhash render md5 b := by
  simp only [ueq, Bool.and_eq_true, beq_iff_eq] at h
  simp only [uhash, h.2]

/-- **C48** (order). `<` is irreflexive and transitive and does not tell equal elements
apart. -/
theorem C48_order (render : List Tok → String) :
    (∀ a, ¬ ult render a a) ∧
    (∀ a b c, ult render a b → ult render b c → ult render a c) ∧
    (∀ a a' b, ueq render a a' = true → (ult render a b ↔ ult render a' b) ∧
      (ult render b a ↔ ult render b a')) := by
  refine ⟨fun a => lt_irrefl _, fun a b c => lt_trans, ?_⟩
  intro a a' b h
  simp only [ueq, Bool.and_eq_true, beq_iff_eq] at h
  simp only [ult, h.2, and_self]

/-- **C48** (total order). Of two elements exactly one is smaller unless they are equal:
sorting elements is well defined, also across classes. -/
theorem C48_total {render : List Tok → String} (hr : ∀ s t, render s = render t → s = t)
    (a b : UElem) :
    (ult render a b ∧ ¬ ueq render a b = true ∧ ¬ ult render b a) ∨
    (¬ ult render a b ∧ ueq render a b = true ∧ ¬ ult render b a) ∨
    (¬ ult render a b ∧ ¬ ueq render a b = true ∧ ult render b a) := by
  have hk : render (repr a) = render (repr b) ↔ ueq render a b = true := by
    simp only [ueq, Bool.and_eq_true, beq_iff_eq]
    refine ⟨fun h => ⟨?_, h⟩, fun h => h.2⟩
    obtain ⟨ta, hta⟩ := repr_head a
    obtain ⟨tb, htb⟩ := repr_head b
    have := hr _ _ h
    rw [hta, htb] at this
    simp only [List.cons.injEq, Tok.name.injEq] at this
    exact this.1
  rw [← hk]
  unfold ult
  rcases lt_trichotomy (render (repr a)) (render (repr b)) with h | h | h
  · exact .inl ⟨h, h.ne, h.asymm⟩
  · exact .inr (.inl ⟨h ▸ lt_irrefl _, h, h ▸ lt_irrefl _⟩)
  · exact .inr (.inr ⟨h.asymm, h.ne', h⟩)

/-! ## C53: reconstruct_from_elements -/

/-- The sub-elements of a mixed, vector or tensor element. -/
def subElements : UElem → List UElem
  | .mixed _ subs => subs
  | .vector _ e dim _ => List.replicate dim e
  | .tensor _ e _ _ _ count _ _ => List.replicate count e
  | _ => []

/-- **C53** (for as many elements as there are sub-elements). The element returned has the
given sub-elements, and it is the element itself only if they are its own. Missing: a list
of another length, where the code can return the element unchanged
(`C53_truncated`). -/
theorem C53_partial {render : List Tok → String} (hr : ∀ s t, render s = render t → s = t)
    {m e' : UElem} (hm : ∀ s ∈ subElements m, Built s) {es : List UElem}
    (hes : ∀ s ∈ es, Built s) (hlen : es.length = (subElements m).length)
    (h : reconstructFromElements render m (subElements m) es = .ok e') :
    subElements e' = es ∧ (e' = m → es = subElements m) := by
  have hall : ∀ (as bs : List UElem), as.length = bs.length → (∀ s ∈ as, Built s) →
      (∀ s ∈ bs, Built s) →
      (List.zip as bs).all (fun p => ueq render p.1 p.2) = true → as = bs := by
    intro as
    induction as with
    | nil => intro bs hl _ _ _; cases bs with | nil => rfl | cons => cases hl
    | cons a as ih =>
      intro bs hl ha hb h
      cases bs with
      | nil => cases hl
      | cons b bs =>
        simp only [List.zip_cons_cons, List.all_cons, Bool.and_eq_true] at h
        rw [C64_equal_elements hr (ha a List.mem_cons_self) (hb b List.mem_cons_self) h.1,
          ih bs (by simpa using hl) (fun s hs => ha s (List.mem_cons_of_mem _ hs))
            (fun s hs => hb s (List.mem_cons_of_mem _ hs)) h.2]
  unfold reconstructFromElements at h
  split at h
  · next hz =>
    cases h
    have := hall _ _ hlen hes hm hz
    exact ⟨this.symm, fun _ => this⟩
  · obtain ⟨b, -, rfl⟩ := mkMixed_ok h
    exact ⟨rfl, fun h => by rw [← h]; rfl⟩

/-- **C53** (limit). Given only the first sub-elements, or more elements than there are
sub-elements, `reconstruct_from_elements` returns the element unchanged if those compared
are equal. -/
theorem C53_truncated (render : List Tok → String) (m : UElem) (es : List UElem)
    (h : es <+: subElements m ∨ subElements m <+: es) :
    reconstructFromElements render m (subElements m) es = .ok m := by
  have hz : ∀ (as bs : List UElem), as <+: bs ∨ bs <+: as →
      (List.zip as bs).all (fun p => ueq render p.1 p.2) = true := by
    intro as
    induction as with
    | nil => simp
    | cons a as ih =>
      intro bs h
      cases bs with
      | nil => simp
      | cons b bs =>
        simp only [List.cons_prefix_cons] at h
        have hab : a = b := by rcases h with ⟨h, -⟩ | ⟨h, -⟩ <;> simp [h]
        have ht : as <+: bs ∨ bs <+: as := by
          rcases h with ⟨-, h⟩ | ⟨-, h⟩
          · exact .inl h
          · exact .inr h
        rw [List.zip_cons_cons, List.all_cons, ih bs ht, hab]
        simp [ueq]
  unfold reconstructFromElements
  rw [if_pos (hz _ _ h)]

/-! ## Concrete cases -/

namespace UflTreeCases

open UflListCases

/-- Lagrange elements on triangles. -/
def lag (r : Int) : UElem :=
  .fe ⟨"Lagrange", some (.named .triangle), .int r, none, []⟩ (.int r) .h1 "identity" none (.int r)

theorem lag_ok (r : Int) (hr : r = 1 ∨ r = 2) :
    newFe "CG" (.int r) none none none (some (.named .triangle)) = .ok (lag r) := by
  have h : canonicalElementDescription "CG" (some (.named .triangle)) (.int r) none
      = .ok ⟨"Lagrange", some "CG", .int r, [], .h1, "identity", .int r⟩ := by
    rw [canonical_eq_fast]
    rcases hr with rfl | rfl <;> decide +kernel
  rw [newFe, newFeOn, mkFe, h]
  rfl

theorem lag_built (r : Int) (hr : r = 1 ∨ r = 2) : Built (lag r) := .fe (lag_ok r hr)

/-- `VectorElement("CG", triangle, 2)`. -/
def vec : UElem :=
  .vector ⟨"Lagrange", some (.named .triangle), .int 2, none, [2]⟩ (lag 2) 2 none

theorem vec_built : Built vec := .vector (dim := none) (lag_built 2 (.inr rfl)) (by rfl)

/-- The Taylor-Hood element. -/
def taylorHood : UElem :=
  .mixed ⟨"Mixed", some (.named .triangle), .int 2, none, [3]⟩ [vec, lag 1]

theorem th_subs : ∀ s ∈ subElements taylorHood, Built s := by
  intro s hs
  simp only [taylorHood, subElements, List.mem_cons, List.not_mem_nil, or_false] at hs
  rcases hs with rfl | rfl
  · exact vec_built
  · exact lag_built 1 (.inl rfl)

theorem th_built : Built taylorHood := .mixed (subs := [vec, lag 1]) th_subs (by rfl)

/-- Symmetric tensors of Lagrange elements. -/
def sym : UElem :=
  .tensor ⟨"Lagrange", some (.named .triangle), .int 1, none, [3]⟩ (lag 1) [2, 2]
    [([1, 0], [0, 1])] [([0, 0], 0), ([0, 1], 1), ([1, 1], 2), ([1, 0], 1)] 3 "symmetries" none

theorem sym_built : Built sym :=
  .tensor (shape := none) (sym := .full) (lag_built 1 (.inl rfl)) (by rfl)

/-- Broken and restricted elements. -/
theorem broken_built : ∃ e, mkBroken taylorHood = .ok e ∧ Built e :=
  ⟨_, rfl, .broken th_built rfl⟩

example := C52_reconstruct th_built
example := C52_reconstruct sym_built
example (render : List Tok → String) := C52_reconstruct_eq render th_built

example : ∃ render : List Tok → String, ∀ s t, render s = render t → s = t := exists_render

example (render : List Tok → String) : ueq render taylorHood taylorHood = true := by simp [ueq]
example {render : List Tok → String} (hr : ∀ s t, render s = render t → s = t) :=
  C64_equal_elements hr th_built th_built (by simp [ueq])

/-- Elements of different degree are not equal. -/
example {render : List Tok → String} (hr : ∀ s t, render s = render t → s = t) :
    ¬ ueq render (lag 1) (lag 2) = true := by
  intro h
  have := C64_equal_elements hr (lag_built 1 (.inl rfl)) (lag_built 2 (.inr rfl)) h
  simp [lag] at this

/-- Other sub-elements, as many: replaced. -/
example {render : List Tok → String} (hr : ∀ s t, render s = render t → s = t) :
    ∃ e, reconstructFromElements render taylorHood (subElements taylorHood) [lag 1, lag 2] = .ok e ∧
      subElements e = [lag 1, lag 2] := by
  have hne : ¬ ueq render (lag 1) vec = true := by
    intro h
    have := C64_equal_elements hr (lag_built 1 (.inl rfl)) vec_built h
    simp [lag, vec] at this
  refine ⟨.mixed ⟨"Mixed", some (.named .triangle), .int 2, none, [2]⟩ [lag 1, lag 2], ?_, rfl⟩
  unfold reconstructFromElements
  rw [if_neg]
  · rfl
  · simp [taylorHood, subElements, hne]

/-- One element instead of two: the mixed element of two is returned. -/
example (render : List Tok → String) :
    reconstructFromElements render taylorHood (subElements taylorHood) [vec] = .ok taylorHood ∧
      subElements taylorHood ≠ [vec] :=
  ⟨C53_truncated render taylorHood [vec] (.inl ⟨[lag 1], rfl⟩), by
    intro h; simp [taylorHood, subElements] at h⟩

end UflTreeCases

end FInAT.Props
