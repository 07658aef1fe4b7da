import Verif.Model.Ufl.ElementList

/-!
# Lemmas on the UFL element list
-/

namespace FInAT.Ufl

/-- No family is registered twice. -/
theorem registerAll_ok : registerAll [] registrations = .ok uflElements := by
  have h : (match registerAll [] registrations with | .ok _ => true | .error _ => false) = true := by
    decide +kernel
  unfold uflElements
  split at h
  · next d hd => rw [hd]
  · cases h

/-- Facts on every row of the table, checked by computation. -/
theorem table_facts : ∀ p ∈ uflElements,
    uflElements.get? p.2.family = some p.2 ∧ aliases.get? p.2.family = none ∧
    p.2.family ≠ "P" ∧ p.2.family ≠ "P L2" ∧ p.2.family ≠ "S L2" ∧ p.2.valueRank ≤ 2 ∧
    p.2 ∈ registrations := by
  decide +kernel

/-- Every registration is found under its own name. -/
theorem registered_facts : ∀ e ∈ registrations, uflElements.get? e.family = some e ∧
    aliases.get? e.family = none := by
  decide +kernel

/-- The entry of "Q" repeats the one of "Lagrange" except for names and cells. -/
theorem cube_facts : ∀ p ∈ uflElements,
    (p.2.family = "Lagrange" → ∃ e, uflElements.get? "Q" = some e ∧ e.family = "Q" ∧
      e.valueRank = p.2.valueRank ∧ e.sobolev = p.2.sobolev ∧ e.mapping = p.2.mapping ∧
      e.kmin = p.2.kmin ∧ e.kmax = p.2.kmax ∧ e.cellnames = .names cubes) ∧
    (p.2.family = "Discontinuous Lagrange" → ∃ e, uflElements.get? "DQ" = some e ∧
      e.family = "DQ" ∧
      e.valueRank = p.2.valueRank ∧ e.sobolev = p.2.sobolev ∧ e.mapping = p.2.mapping ∧
      e.kmin = p.2.kmin ∧ e.kmax = p.2.kmax ∧ e.cellnames = .names cubes) ∧
    (p.2.family = "Discontinuous Lagrange L2" → ∃ e, uflElements.get? "DQ L2" = some e ∧
      e.family = "DQ L2" ∧
      e.valueRank = p.2.valueRank ∧ e.sobolev = p.2.sobolev ∧ e.mapping = p.2.mapping ∧
      e.kmin = p.2.kmin ∧ e.kmax = p.2.kmax ∧ e.cellnames = .names cubes) := by
  have h : ∀ p ∈ uflElements,
      (p.2.family = "Lagrange" → (match uflElements.get? "Q" with
        | some e => decide (e.family = "Q" ∧
      e.valueRank = p.2.valueRank ∧ e.sobolev = p.2.sobolev ∧ e.mapping = p.2.mapping ∧
      e.kmin = p.2.kmin ∧ e.kmax = p.2.kmax ∧ e.cellnames = .names cubes) | none => false) = true) ∧
      (p.2.family = "Discontinuous Lagrange" → (match uflElements.get? "DQ" with
        | some e => decide (e.family = "DQ" ∧
      e.valueRank = p.2.valueRank ∧ e.sobolev = p.2.sobolev ∧ e.mapping = p.2.mapping ∧
      e.kmin = p.2.kmin ∧ e.kmax = p.2.kmax ∧ e.cellnames = .names cubes) | none => false) = true) ∧
      (p.2.family = "Discontinuous Lagrange L2" → (match uflElements.get? "DQ L2" with
        | some e => decide (e.family = "DQ L2" ∧
      e.valueRank = p.2.valueRank ∧ e.sobolev = p.2.sobolev ∧ e.mapping = p.2.mapping ∧
      e.kmin = p.2.kmin ∧ e.kmax = p.2.kmax ∧ e.cellnames = .names cubes) | none => false) = true) := by
    decide +kernel
  intro p hp
  obtain ⟨h1, h2, h3⟩ := h p hp
  refine ⟨fun e => ?_, fun e => ?_, fun e => ?_⟩
  · have := h1 e
    split at this
    · next e' he' => exact ⟨e', he', of_decide_eq_true this⟩
    · cases this
  · have := h2 e
    split at this
    · next e' he' => exact ⟨e', he', of_decide_eq_true this⟩
    · cases this
  · have := h3 e
    split at this
    · next e' he' => exact ⟨e', he', of_decide_eq_true this⟩
    · cases this

/-- A name that is not an alias is left alone. -/
theorem resolve_of_not_alias {tdim : Option Nat} {k : Option Int} {s : String × Order}
    (h : aliases.get? s.1 = none) : resolve tdim k s = .ok s := by
  rw [resolve]
  have : aliasStep tdim k s = none := by simp [aliasStep, h]
  split <;> simp_all

/-- What the cube rule does to a registered family. -/
theorem cubeFamily_ok {cell : Option UCell} {f f' : String} {o : Order}
    (h : cubeFamily cell f o = .ok f') :
    f' = f ∨ (isCubeLike cell = true ∧ ((f = "Lagrange" ∧ f' = "Q") ∨
      (f = "Discontinuous Lagrange" ∧ f' = "DQ") ∨
      (f = "Discontinuous Lagrange L2" ∧ f' = "DQ L2"))) := by
  unfold cubeFamily at h
  by_cases hc : isCubeLike cell = true
  · rw [if_pos hc] at h
    by_cases h1 : f = "Lagrange"
    · rw [if_pos h1] at h; cases h; exact .inr ⟨hc, .inl ⟨h1, rfl⟩⟩
    · rw [if_neg h1] at h
      by_cases h2 : f = "Discontinuous Lagrange"
      · rw [if_pos h2] at h
        cases o <;> cases h
        exact .inr ⟨hc, .inr (.inl ⟨h2, rfl⟩)⟩
      · rw [if_neg h2] at h
        by_cases h3 : f = "Discontinuous Lagrange L2"
        · rw [if_pos h3] at h
          cases o <;> cases h
          exact .inr ⟨hc, .inr (.inr ⟨h3, rfl⟩)⟩
        · rw [if_neg h3] at h; cases h; exact .inl rfl
  · rw [if_neg hc] at h; cases h; exact .inl rfl

/-- The cube-like plain cells are in `cubes`. -/
theorem cubeLike_allowed {cell : Option UCell} (h : isCubeLike cell = true) :
    cellAllowed cell (.names cubes) = true := by
  rcases cell with _ | (n | cs)
  · rfl
  · simp only [isCubeLike, Bool.and_eq_true] at h
    exact h.1
  · rfl

/-- The inversion of an accepted description. -/
theorem canonical_ok {family : String} {cell : Option UCell} {order : Order} {k : Option Int}
    {d : Desc} (h : canonicalElementDescription family cell order k = .ok d) :
    ∃ s e, (do let s ← catchFeec (tdimOf cell) k (family, order)
               resolve (tdimOf cell) k s) = .ok s ∧
      uflElements.get? s.1 = some e ∧ cubeFamily cell e.family s.2 = .ok d.family ∧
      cellAllowed cell e.cellnames = true ∧ orderAllowed s.2 e.kmin e.kmax = true ∧
      shapeOf (tdimOf cell) e.valueRank = .ok d.shape ∧ d.shortName = e.shortName ∧
      d.order = s.2 ∧ d.sobolev = e.sobolev ∧ d.mapping = e.mapping ∧
      d.embedded = embeddedOf (tdimOf cell) d.family s.2 := by
  unfold canonicalElementDescription describe at h
  simp only [bind, Except.bind] at h ⊢
  cases h1 : catchFeec (tdimOf cell) k (family, order) with
  | error e => rw [h1] at h; cases h
  | ok s1 =>
    rw [h1] at h
    simp only at h ⊢
    cases h2 : resolve (tdimOf cell) k s1 with
    | error e => rw [h2] at h; cases h
    | ok s =>
      rw [h2] at h
      simp only at h ⊢
      cases h3 : uflElements.get? s.1 with
      | none => rw [h3] at h; cases h
      | some e =>
        rw [h3] at h
        simp only at h
        cases h4 : cubeFamily cell e.family s.2 with
        | error e => rw [h4] at h; cases h
        | ok f =>
          rw [h4] at h
          simp only at h
          by_cases h5 : cellAllowed cell e.cellnames = true
          · rw [if_neg (by simp [h5])] at h
            by_cases h6 : orderAllowed s.2 e.kmin e.kmax = true
            · rw [if_neg (by simp [h6])] at h
              cases h7 : shapeOf (tdimOf cell) e.valueRank with
              | error e => rw [h7] at h; cases h
              | ok sh =>
                rw [h7] at h
                cases h
                exact ⟨s, e, rfl, h3, h4, h5, h6, h7, rfl, rfl, rfl, rfl, rfl⟩
            · rw [if_pos (by simp [h6])] at h; cases h
          · rw [if_pos (by simp [h5])] at h; cases h

/-- The description of a registered family that is not renamed on this cell. -/
theorem canonical_of_registered {e : Entry} {cell : Option UCell} {order : Order}
    {k : Option Int} {f : String} {shape : List Nat}
    (hget : uflElements.get? e.family = some e) (hk : k = none ∨ e.family ≠ "S")
    (hcube : cubeFamily cell e.family order = .ok f)
    (hcell : cellAllowed cell e.cellnames = true)
    (hord : orderAllowed order e.kmin e.kmax = true)
    (hshape : shapeOf (tdimOf cell) e.valueRank = .ok shape) :
    canonicalElementDescription e.family cell order k = .ok
      ⟨f, e.shortName, order, shape, e.sobolev, e.mapping,
        embeddedOf (tdimOf cell) f order⟩ := by
  obtain ⟨-, ha, hP, hPL, hSL, -, -⟩ := table_facts _ (get?_mem hget)
  simp only at ha hP hPL hSL
  have hc : catchFeec (tdimOf cell) k (e.family, order) = .ok (e.family, order) := by
    unfold catchFeec
    have h1 : (k.isSome && (e.family == "P" || e.family == "S")) = false := by
      rcases hk with rfl | hS
      · rfl
      · simp [hP, hS]
    have h2 : (k.isSome && (e.family == "P L2" || e.family == "S L2")) = false := by
      simp [hPL, hSL]
    simp only [h1, h2, bind, Except.bind, Bool.false_eq_true, if_false]
  unfold canonicalElementDescription describe
  simp only [hc, bind, Except.bind]
  rw [resolve_of_not_alias (s := (e.family, order)) ha]
  simp only [hget, hcube, hcell, hord, hshape]
  simp

end FInAT.Ufl

