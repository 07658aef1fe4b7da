import Verif.Props.UflKeywords

/-!
# C97: vector and tensor elements made from the name of a family
-/

namespace FInAT.Props

open FInAT.Ufl

theorem newFe_cell' {f : String} {o : Order} {k : Option Int} {q v : Option String} {c : Option UCell}
    {s : UElem} (h : newFe f o k q v c = .ok s) : s.cell = c := by
  cases c with
  | some c => exact newFe_cell h
  | none => rw [newFe] at h; exact mkFe_cell h

/-- **C97**, vectors: `VectorElement(family, cell, degree, dim, form_degree, quad_scheme, variant)` is
`VectorElement(FiniteElement(family, cell, degree, form_degree, quad_scheme, variant), dim=dim)`; where one raises an
exception the other raises the same. -/
theorem C97_vector (f : String) (c : Option UCell) (o : Order) (dim : Option Nat) (k : Option Int)
    (q v : Option String) :
    newVector f c o dim k q v = (newFe f o k q v c >>= fun s => mkVector s dim) := by
  unfold newVector
  cases hs : newFe f o k q v c with
  | error e => rfl
  | ok s =>
    have hv : s.variant = v := (newFe_plain hs).2
    have hc : s.cell = c := newFe_cell' hs
    show (_ >>= fun d => mkVectorOf s (some d) v) = mkVectorOf s dim s.variant
    rw [hv]
    unfold mkVectorOf
    rw [hc]
    cases dim <;> cases c <;> rfl

/-- **C97**, tensors: `TensorElement(family, cell, degree, shape, symmetry, quad_scheme, variant)` is
`TensorElement(FiniteElement(family, cell, degree, quad_scheme=quad_scheme, variant=variant), shape=shape,
symmetry=symmetry)`, exceptions included. -/
theorem C97_tensor (f : String) (c : Option UCell) (o : Order) (shape : Option (List Nat)) (sym : SymArg)
    (q v : Option String) :
    newTensor f c o shape sym q v = (newFe f o none q v c >>= fun s => mkTensor s shape sym) := by
  unfold newTensor
  cases hs : newFe f o none q v c with
  | error e => rfl
  | ok s =>
    have hv : s.variant = v := (newFe_plain hs).2
    have hc : s.cell = c := newFe_cell' hs
    show (_ >>= fun d => mkTensorOf s (some d) sym v) = mkTensorOf s shape sym s.variant
    rw [hv]
    unfold mkTensorOf
    rw [hc]
    cases shape <;> cases c <;> rfl

/-- **C97**, what is kept: the vector element is on the given cell, has the given variant and `dim` components (the
dimension of the cell unless given), each the element that `FiniteElement` makes with the same arguments. -/
theorem C97_kept {f : String} {c : Option UCell} {o : Order} {dim : Option Nat} {k : Option Int}
    {q v : Option String} {e : UElem} (h : newVector f c o dim k q v = .ok e) :
    e.cell = c ∧ e.variant = v ∧ ∃ b s n w, e = .vector b s n w ∧ newFe f o k q v c = .ok s ∧
      (∀ d, dim = some d → n = d) ∧ (dim = none → ∃ x, c = some x ∧ n = x.tdim) := by
  unfold newVector at h
  obtain ⟨s, hs, h⟩ := bind_ok h
  obtain ⟨d, hd, h⟩ := bind_ok h
  obtain ⟨n, sh, rfl, -, -, hn⟩ := mkVectorOf_ok h
  have hnd := hn d rfl
  refine ⟨?_, ?_, _, s, n, v, rfl, hs, ?_, ?_⟩
  · rw [← newFe_cell' hs]; rfl
  · rw [UElem.variant]; exact (newFe_plain hs).2
  · rintro d' rfl
    cases hd
    exact hnd
  · rintro rfl
    cases c with
    | none => cases hd
    | some x => cases hd; exact ⟨x, rfl, hnd⟩

/-- **C97**, schemes, in part: on cells that are not products, the vector element has the given quadrature scheme. On
products of cells the scheme is dropped (`C97_scheme_dropped`). -/
theorem C97_scheme_partial {f : String} {c : Option UCell} {o : Order} {dim : Option Nat} {k : Option Int}
    {q v : Option String} {e : UElem} (hc : ∀ cs, c ≠ some (.tensor cs)) (h : newVector f c o dim k q v = .ok e) :
    e.quadScheme = q := by
  obtain ⟨s, hs, h⟩ := bind_ok h
  obtain ⟨d, hd, h⟩ := bind_ok h
  obtain ⟨n, sh, rfl, -⟩ := mkVectorOf_ok h
  have : s.quadScheme = q := by
    rcases c with _ | (m | cs)
    · rw [newFe] at hs
      obtain ⟨d, -, rfl⟩ := mkFe_ok hs
      rfl
    · rw [newFe, newFeOn] at hs
      obtain ⟨d, -, rfl⟩ := mkFe_ok hs
      rfl
    · exact absurd rfl (hc cs)
  exact this

namespace FamilyFormCases

open UflKeywordCases UflListCases

theorem desc_q : canonicalElementDescription "CG" (some square) (.int 1) none
    = .ok ⟨"Q", some "CG", .int 1, [], .h1, "identity", .int 1⟩ := by
  rw [canonical_eq_fast]
  decide +kernel

theorem desc_rt : canonicalElementDescription "RT" (some (.named .triangle)) (.int 2) none
    = .ok ⟨"Raviart-Thomas", some "RT", .int 2, [2], .hDiv, "contravariant Piola", .int 2⟩ := by
  rw [canonical_eq_fast]
  decide +kernel

/-- Two Raviart-Thomas elements with a scheme and a variant. -/
theorem two_rt : ∃ e, newVector "RT" (some (.named .triangle)) (.int 2) none none (some "KMV") (some "integral") =
    .ok e := by
  rw [C97_vector, newFe, newFeOn, mkFe, desc_rt]
  exact ⟨_, rfl⟩

example : ∃ e, newVector "RT" (some (.named .triangle)) (.int 2) none none (some "KMV") (some "integral") = .ok e ∧
    e.variant = some "integral" ∧ e.quadScheme = some "KMV" ∧ e.shape = .ok [2, 2] := by
  obtain ⟨e, h⟩ := two_rt
  refine ⟨e, h, (C97_kept h).2.1, C97_scheme_partial (by simp) h, ?_⟩
  rw [C97_vector, newFe, newFeOn, mkFe, desc_rt] at h
  cases h
  rfl

end FamilyFormCases

/-- **C97**, counterexample: on the product of two intervals, the continuous family is expanded into a product of
elements, and the quadrature scheme is not passed on. -/
theorem C97_scheme_dropped : ∃ e, newVector "CG" (some (.tensor [.named .interval, .named .interval])) (.int 1)
    none none (some "KMV") none = .ok e ∧ e.quadScheme = none := by
  have hs : newFe "CG" (.int 1) none (some "KMV") none (some UflKeywordCases.square) = .ok UflKeywordCases.bilinear := by
    rw [newFe, UflKeywordCases.square, newFeOn]
    have h := FamilyFormCases.desc_q
    rw [UflKeywordCases.square] at h
    have h1 : newFeOn "CG" (.int 1) none none none (.named .interval) = .ok UflKeywordCases.segment := by
      have h : canonicalElementDescription "CG" (some (.named .interval)) (.int 1) none
          = .ok ⟨"Lagrange", some "CG", .int 1, [], .h1, "identity", .int 1⟩ := by
        rw [UflListCases.canonical_eq_fast]
        decide +kernel
      rw [newFeOn, mkFe, h]
      rfl
    have h2 : newFes "CG" "CG" (.int 1) none [.named .interval, .named .interval] =
        .ok [UflKeywordCases.segment, UflKeywordCases.segment] := by
      have hd : ∀ c, dqFamily "CG" "CG" c = "CG" := by
        intro c
        cases c <;> simp [dqFamily]
      rw [newFes, newFes, newFes, hd, h1]
    rw [h]
    simp only [reduceCtorEq, String.reduceEq, if_false, if_true, h2]
    rfl
  rw [C97_vector]
  refine ⟨_, by
    show (newFe "CG" (.int 1) none (some "KMV") none (some UflKeywordCases.square) >>= _) = _
    rw [hs]; rfl, rfl⟩

end FInAT.Props
