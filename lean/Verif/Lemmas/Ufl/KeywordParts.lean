import Verif.Lemmas.Ufl.Keywords

/-!
# Simple parts, variants and cells of reconstructed elements
-/

namespace FInAT.Ufl

open UElem

/-! ## Simple parts -/

mutual
theorem alike_parts {R : UElem → UElem → Prop} : ∀ {e e' : UElem}, Alike R e e' →
    List.Forall₂ R (leaves e) (leaves e')
  | .fe .., e', h => by
    cases h with
    | fe h => rw [leaves, leaves]; exact .cons h .nil
  | .mixed _ subs, e', h => by
    cases h with
    | mixed h => rw [leaves, leaves]; exact alike_partss h
  | .vector .., e', h => by
    cases h with
    | vector h => rw [leaves, leaves]; exact alike_parts h
  | .tensor .., e', h => by
    cases h with
    | tensor h => rw [leaves, leaves]; exact alike_parts h
  | .product _ subs, e', h => by
    cases h with
    | product h _ => rw [leaves, leaves]; exact alike_partss h
  | .enriched _ _ subs, e', h => by
    cases h with
    | enriched h => rw [leaves, leaves]; exact alike_partss h
  | .hdiv .., e', h => by
    cases h with
    | hdiv h => rw [leaves, leaves]; exact alike_parts h
  | .hcurl .., e', h => by
    cases h with
    | hcurl h => rw [leaves, leaves]; exact alike_parts h
  | .withMapping .., e', h => by
    cases h with
    | withMapping h => rw [leaves, leaves]; exact alike_parts h
  | .restricted .., e', h => by
    cases h with
    | restricted h => rw [leaves, leaves]; exact alike_parts h
  | .broken .., e', h => by
    cases h with
    | broken h => rw [leaves, leaves]; exact alike_parts h
theorem alike_partss {R : UElem → UElem → Prop} : ∀ {es es' : List UElem},
    List.Forall₂ (Alike R) es es' → List.Forall₂ R (leavess es) (leavess es')
  | [], _, h => by cases h; rw [leavess]; exact .nil
  | e :: es, _, h => by
    cases h with
    | cons h hs =>
      rw [leavess, leavess]
      exact List.rel_append (alike_parts h) (alike_partss hs)
end

mutual
theorem alike_unbroken {R : UElem → UElem → Prop} : ∀ {e e' : UElem}, Alike R e e' →
    Unbroken e → Unbroken e'
  | .fe .., e', h, hu => by
    cases h with
    | fe h => rw [Unbroken]; trivial
  | .mixed _ subs, e', h, hu => by
    cases h with
    | mixed h =>
      rw [Unbroken] at hu ⊢
      refine ⟨?_, alike_unbrokens h hu.2⟩
      rintro rfl
      cases h
      exact hu.1 rfl
  | .vector .., e', h, hu => by
    cases h with
    | vector h => rw [Unbroken] at hu ⊢; exact alike_unbroken h hu
  | .tensor .., e', h, hu => by
    cases h with
    | tensor h => rw [Unbroken] at hu ⊢; exact alike_unbroken h hu
  | .product _ subs, e', h, hu => by
    cases h with
    | product h _ =>
      rw [Unbroken] at hu ⊢
      refine ⟨?_, alike_unbrokens h hu.2⟩
      rintro rfl
      cases h
      exact hu.1 rfl
  | .enriched _ _ subs, e', h, hu => by
    cases h with
    | enriched h =>
      rw [Unbroken] at hu ⊢
      refine ⟨?_, alike_unbrokens h hu.2⟩
      rintro rfl
      cases h
      exact hu.1 rfl
  | .hdiv .., e', h, hu => by
    cases h with
    | hdiv h => rw [Unbroken] at hu ⊢; exact alike_unbroken h hu
  | .hcurl .., e', h, hu => by
    cases h with
    | hcurl h => rw [Unbroken] at hu ⊢; exact alike_unbroken h hu
  | .withMapping .., e', h, hu => by
    cases h with
    | withMapping h => rw [Unbroken] at hu ⊢; exact alike_unbroken h hu
  | .restricted .., e', h, hu => by
    cases h with
    | restricted h => rw [Unbroken] at hu ⊢; exact alike_unbroken h hu
  | .broken .., e', h, hu => by rw [Unbroken] at hu; exact hu.elim
theorem alike_unbrokens {R : UElem → UElem → Prop} : ∀ {es es' : List UElem},
    List.Forall₂ (Alike R) es es' → Unbrokens es → Unbrokens es'
  | [], _, h, _ => by cases h; rw [Unbrokens]; trivial
  | e :: es, _, h, hu => by
    cases h with
    | cons h hs =>
      rw [Unbrokens] at hu ⊢
      exact ⟨alike_unbroken h hu.1, alike_unbrokens hs hu.2⟩
end

/-! ## Variants -/

theorem commonVariant_some {vs : List (Option String)} {v : String}
    (h : commonVariant vs = some v) : ∀ w ∈ vs, w = some v := by
  cases vs with
  | nil => cases h
  | cons a as =>
    unfold commonVariant at h
    simp only at h
    split at h
    · next ha =>
      subst h
      intro w hw
      rcases List.mem_cons.1 hw with rfl | hw
      · rfl
      · simpa using List.all_eq_true.1 ha w hw
    · cases h

theorem variants_eq_map : ∀ es : List UElem, variants es = es.map UElem.variant
  | [] => by rw [variants]; rfl
  | e :: es => by rw [variants, variants_eq_map es]; rfl

mutual
theorem variant_parts {v : String} : ∀ {e : UElem}, e.variant = some v →
    ∀ p ∈ leaves e, p.variant = some v
  | .fe .., h => by
    rw [leaves]
    intro p hp
    rw [List.mem_singleton.1 hp]; exact h
  | .mixed _ subs, h => by
    rw [leaves]; rw [variant] at h
    exact variant_partss (commonVariant_some h)
  | .vector .., h => by rw [leaves]; rw [variant] at h; exact variant_parts h
  | .tensor .., h => by rw [leaves]; rw [variant] at h; exact variant_parts h
  | .product _ subs, h => by
    rw [leaves]; rw [variant] at h
    exact variant_partss (commonVariant_some h)
  | .enriched _ _ subs, h => by
    rw [leaves]; rw [variant] at h
    exact variant_partss (commonVariant_some h)
  | .hdiv .., h => by rw [leaves]; rw [variant] at h; exact variant_parts h
  | .hcurl .., h => by rw [leaves]; rw [variant] at h; exact variant_parts h
  | .withMapping .., h => by rw [leaves]; rw [variant] at h; exact variant_parts h
  | .restricted .., h => by rw [leaves]; rw [variant] at h; exact variant_parts h
  | .broken .., h => by rw [variant] at h; cases h
theorem variant_partss {v : String} : ∀ {es : List UElem}, (∀ w ∈ variants es, w = some v) →
    ∀ p ∈ leavess es, p.variant = some v
  | [], _ => by rw [leavess]; simp
  | e :: es, h => by
    rw [variants] at h
    rw [leavess]
    intro p hp
    rcases List.mem_append.1 hp with hp | hp
    · exact variant_parts (h _ List.mem_cons_self) p hp
    · exact variant_partss (fun w hw => h w (List.mem_cons_of_mem _ hw)) p hp
end

theorem commonVariant_all {vs : List (Option String)} {v : Option String} (hne : vs ≠ [])
    (h : ∀ w ∈ vs, w = v) : commonVariant vs = v := by
  cases vs with
  | nil => exact absurd rfl hne
  | cons a as =>
    unfold commonVariant
    simp only
    have ha := h a List.mem_cons_self
    subst ha
    rw [if_pos]
    rw [List.all_eq_true]
    intro w hw
    rw [h w (List.mem_cons_of_mem _ hw)]
    simp

theorem variants_ne {es : List UElem} (h : es ≠ []) : variants es ≠ [] := by
  cases es with
  | nil => exact absurd rfl h
  | cons e es => rw [variants]; simp

mutual
theorem variant_of_parts {v : Option String} : ∀ {e : UElem}, Unbroken e →
    (∀ p ∈ leaves e, p.variant = v) → e.variant = v
  | .fe .., _, h => by
    rw [leaves] at h
    exact h _ List.mem_cons_self
  | .mixed _ subs, hu, h => by
    rw [leaves] at h; rw [Unbroken] at hu; rw [variant]
    exact commonVariant_all (variants_ne hu.1) (variants_of_parts hu.2 h)
  | .vector .., hu, h => by
    rw [leaves] at h; rw [Unbroken] at hu; rw [variant]; exact variant_of_parts hu h
  | .tensor .., hu, h => by
    rw [leaves] at h; rw [Unbroken] at hu; rw [variant]; exact variant_of_parts hu h
  | .product _ subs, hu, h => by
    rw [leaves] at h; rw [Unbroken] at hu; rw [variant]
    exact commonVariant_all (variants_ne hu.1) (variants_of_parts hu.2 h)
  | .enriched _ _ subs, hu, h => by
    rw [leaves] at h; rw [Unbroken] at hu; rw [variant]
    exact commonVariant_all (variants_ne hu.1) (variants_of_parts hu.2 h)
  | .hdiv .., hu, h => by
    rw [leaves] at h; rw [Unbroken] at hu; rw [variant]; exact variant_of_parts hu h
  | .hcurl .., hu, h => by
    rw [leaves] at h; rw [Unbroken] at hu; rw [variant]; exact variant_of_parts hu h
  | .withMapping .., hu, h => by
    rw [leaves] at h; rw [Unbroken] at hu; rw [variant]; exact variant_of_parts hu h
  | .restricted .., hu, h => by
    rw [leaves] at h; rw [Unbroken] at hu; rw [variant]; exact variant_of_parts hu h
  | .broken .., hu, _ => by rw [Unbroken] at hu; exact hu.elim
theorem variants_of_parts {v : Option String} : ∀ {es : List UElem}, Unbrokens es →
    (∀ p ∈ leavess es, p.variant = v) → ∀ w ∈ variants es, w = v
  | [], _, _ => by rw [variants]; simp
  | e :: es, hu, h => by
    rw [Unbrokens] at hu
    rw [leavess] at h
    rw [variants]
    intro w hw
    rcases List.mem_cons.1 hw with rfl | hw
    · exact variant_of_parts hu.1 fun p hp => h p (List.mem_append_left _ hp)
    · exact variants_of_parts hu.2 (fun p hp => h p (List.mem_append_right _ hp)) w hw
end

/-! ## Cells -/

theorem mkFe_cell {f : String} {c : Option UCell} {o : Order} {k : Option Int}
    {q v : Option String} {e : UElem} (h : mkFe f c o k q v = .ok e) : e.cell = c := by
  obtain ⟨d, -, rfl⟩ := mkFe_ok h
  rfl

theorem mkProduct_cell {subs : List UElem} {c : UCell} {e : UElem}
    (h : mkProduct subs (some c) = .ok e) : e.cell = some c := by
  obtain ⟨c', ss, rfl, -, -, -, -, hc, -⟩ := mkProduct_ok h
  cases hc c rfl; rfl

theorem mkEnriched_cell {n : Bool} {e0 : UElem} {es : List UElem} {e : UElem}
    (h : mkEnriched n (e0 :: es) = .ok e) : e.cell = e0.cell := by
  obtain ⟨e0', es', b, hsub, rfl, -, hc, -⟩ := mkEnriched_ok h
  cases hsub
  exact hc

theorem wrapBase_cell {s : UElem} {b : Base} (h : wrapBase s = .ok b) : b.cell = s.cell := by
  unfold wrapBase at h
  split at h
  · cases h
  · next c hc => cases h; exact hc.symm

theorem mkHDiv_cell {s e : UElem} (h : mkHDiv s = .ok e) : e.cell = s.cell := by
  obtain ⟨b, hb, rfl⟩ := mkHDiv_ok h
  exact wrapBase_cell hb

theorem mkHCurl_cell {s e : UElem} (h : mkHCurl s = .ok e) : e.cell = s.cell := by
  obtain ⟨b, hb, rfl⟩ := mkHCurl_ok h
  exact wrapBase_cell hb

theorem expandRT_cell {wrap : UElem → Except Err UElem}
    (hw : ∀ {s e}, wrap s = .ok e → e.cell = s.cell)
    {cs : List UCell} {o : Order} {v : Option String} {e : UElem}
    (h : expandRT wrap cs o v = .ok e) : e.cell = some (.tensor cs) := by
  unfold expandRT at h
  obtain ⟨_, -, h⟩ := bind_ok h
  obtain ⟨c, hc, h⟩ := bind_ok h
  obtain ⟨low, -, h⟩ := bind_ok h
  obtain ⟨d, hd, h⟩ := bind_ok h
  obtain ⟨cd, hcd, h⟩ := bind_ok h
  obtain ⟨dc, hdc, h⟩ := bind_ok h
  obtain ⟨w1, hw1, h⟩ := bind_ok h
  obtain ⟨w2, hw2, h⟩ := bind_ok h
  rw [mkEnriched_cell h, hw hw1, mkProduct_cell hcd]

theorem expandNC_cell {wrap : UElem → Except Err UElem}
    (hw : ∀ {s e}, wrap s = .ok e → e.cell = s.cell)
    {f1 f2 : String} {l1 l2 : Bool}
    {cs : List UCell} {o : Order} {v : Option String} {e : UElem}
    (h : expandNC wrap f1 f2 l1 l2 cs o v = .ok e) : e.cell = some (.tensor cs) := by
  unfold expandNC at h
  obtain ⟨_, -, h⟩ := bind_ok h
  obtain ⟨low, -, h⟩ := bind_ok h
  obtain ⟨q1, hq1, h⟩ := bind_ok h
  obtain ⟨q2, hq2, h⟩ := bind_ok h
  obtain ⟨d, hd, h⟩ := bind_ok h
  obtain ⟨c, hc, h⟩ := bind_ok h
  obtain ⟨p1, hp1, h⟩ := bind_ok h
  obtain ⟨p2, hp2, h⟩ := bind_ok h
  obtain ⟨w1, hw1, h⟩ := bind_ok h
  obtain ⟨w2, hw2, h⟩ := bind_ok h
  rw [mkEnriched_cell h, hw hw1, mkProduct_cell hp1]

theorem newFe_cell {f : String} {o : Order} {k : Option Int} {q v : Option String} {c : UCell}
    {e : UElem} (h : newFe f o k q v (some c) = .ok e) : e.cell = some c := by
  rw [newFe] at h
  cases c with
  | named n => rw [newFeOn] at h; exact mkFe_cell h
  | tensor cs =>
    rw [newFeOn] at h
    split at h
    · cases h
    · split at h
      · exact expandRT_cell mkHDiv_cell h
      · split at h
        · exact expandRT_cell mkHCurl_cell h
        · split at h
          · exact expandNC_cell mkHDiv_cell h
          · split at h
            · exact expandNC_cell mkHCurl_cell h
            · split at h
              · split at h
                · cases h
                · exact mkProduct_cell h
              · split at h
                · split at h
                  · cases h
                  · exact mkProduct_cell h
                · split at h
                  · split at h
                    · cases h
                    · exact mkProduct_cell h
                  · exact mkFe_cell h

theorem mixedCell_ok {cs : List (Option UCell)} {c : Option UCell} (h : mixedCell cs = .ok c) :
    (∀ x ∈ cs, x = none ∨ x = c) ∧ (c = none → ∀ x ∈ cs, x = none) ∧ (c = none ∨ c ∈ cs) := by
  unfold mixedCell at h
  have hmem : ∀ y, some y ∈ cs ↔ y ∈ cs.filterMap id := by simp
  split at h
  · next hn =>
    cases h
    have : ∀ x ∈ cs, x = none := by
      intro x hx
      cases x with
      | none => rfl
      | some y =>
        have := (hmem y).1 hx
        rw [hn] at this
        cases this
    exact ⟨fun x hx => .inl (this x hx), fun _ => this, .inl rfl⟩
  · next y ys hn =>
    split at h
    · next ha =>
      cases h
      refine ⟨fun x hx => ?_, by simp, .inr ((hmem y).2 (by rw [hn]; exact List.mem_cons_self))⟩
      cases x with
      | none => exact .inl rfl
      | some z =>
        have := (hmem z).1 hx
        rw [hn] at this
        rcases List.mem_cons.1 this with rfl | hz
        · exact .inr rfl
        · have := List.all_eq_true.1 ha z hz
          simp only [beq_iff_eq] at this
          exact .inr (by rw [this])
    · cases h

theorem mixedBase_cell {subs : List UElem} {sh : Option (List Nat)} {b : Base}
    (h : mixedBase subs sh = .ok b) : mixedCell (subs.map UElem.cell) = .ok b.cell := by
  unfold mixedBase at h
  obtain ⟨c, hc, h⟩ := bind_ok h
  obtain ⟨q, hq, h⟩ := bind_ok h
  obtain ⟨ss, hss, h⟩ := bind_ok h
  obtain ⟨d, hd, h⟩ := bind_ok h
  cases h
  exact hc

/-- The cell of the reconstructed element, if the element had one, and in any case. -/
def Moved (c : UCell) (e e' : UElem) : Prop :=
  (e.cell ≠ none → e'.cell = some c) ∧ (e'.cell = none ∨ e'.cell = some c)

theorem moved_mixed {c : UCell} {es es' : List UElem} {x x' : Option UCell}
    (hm : List.Forall₂ (Moved c) es es') (h : mixedCell (es.map UElem.cell) = .ok x)
    (h' : mixedCell (es'.map UElem.cell) = .ok x') :
    (x ≠ none → x' = some c) ∧ (x' = none ∨ x' = some c) := by
  obtain ⟨-, -, h3⟩ := mixedCell_ok h
  obtain ⟨h1', h2', h3'⟩ := mixedCell_ok h'
  have hall : ∀ y ∈ es'.map UElem.cell, y = none ∨ y = some c := by
    clear h h3 h1' h2' h3' h'
    induction hm with
    | nil => simp
    | cons h _ ih =>
      intro y hy
      rcases List.mem_cons.1 hy with rfl | hy
      · exact h.2
      · exact ih y hy
  have hx' : x' = none ∨ x' = some c := by
    rcases h3' with h | h
    · exact .inl h
    · exact hall x' h
  refine ⟨fun hx => ?_, hx'⟩
  have hsome : some c ∈ es'.map UElem.cell := by
    have hmem : x ∈ es.map UElem.cell := h3.resolve_left hx
    clear h h3 h1' h2' h3' h' hall hx'
    induction hm with
    | nil => cases hmem
    | cons h _ ih =>
      rw [List.map_cons] at hmem ⊢
      rcases List.mem_cons.1 hmem with rfl | hmem
      · rw [h.1 hx]; exact List.mem_cons_self
      · exact List.mem_cons_of_mem _ (ih hmem)
  rcases hx' with h | h
  · have := h2' h _ hsome
    cases this
  · exact h

theorem replicate_forall₂ {R : UElem → UElem → Prop} {a b : UElem} (h : R a b) (n : Nat) :
    List.Forall₂ R (List.replicate n a) (List.replicate n b) := by
  induction n with
  | zero => exact .nil
  | succ n ih => exact .cons h ih

/-- `reconstruct(cell=c)` moves the element to `c`. -/
theorem reconstructWith_cell {c : UCell} {e : UElem} (hg : Good e) :
    ∀ {e'}, reconstructWith { cell := some (some c) } e = .ok e' → Moved c e e' := by
  induction hg with
  | @intro e hf hs ih =>
    intro e' h
    have list : ∀ {subs es : List UElem}, (∀ s ∈ subs, s ∈ children e) →
        reconstructsWith { cell := some (some c) } subs = .ok es →
        List.Forall₂ (Moved c) subs es := by
      intro subs es hsub hes
      exact forall₂_imp (reconstructsWith_mem hes) fun a ha b hb => ih a (hsub a ha) hb
    unfold Fixed at hf
    cases e with
    | fe b o so m w em =>
      rw [reconstructWith] at h
      simp only [Option.isSome_none, Bool.false_eq_true, if_false, Option.join_some,
        Option.some_or] at h
      have := newFe_cell h
      exact ⟨fun _ => this, .inr this⟩
    | mixed b subs =>
      rw [reconstructWith] at h
      obtain ⟨es, hes, h⟩ := bind_ok h
      obtain ⟨b', hb', rfl⟩ := mkMixed_ok h
      rw [reconstruct, reconstructs_of_good (es := subs) (hs ·)] at hf
      obtain ⟨b0, hb0, h0⟩ := mkMixed_ok hf
      cases h0
      exact moved_mixed (list (fun s hs => hs) hes) (mixedBase_cell hb0) (mixedBase_cell hb')
    | vector b s dim w =>
      rw [reconstructWith] at h
      obtain ⟨s', hs', h⟩ := bind_ok h
      obtain ⟨n, sh, rfl, -⟩ := mkVectorOf_ok h
      rw [reconstruct, (hs s (by simp [children])).fixed] at hf
      have hf : mkVectorOf s (some dim) s.variant = _ := hf
      obtain ⟨n, sh, h0, -⟩ := mkVectorOf_ok hf
      injection h0 with hb
      have := ih s (by simp [children]) hs'
      refine ⟨fun hne => this.1 ?_, this.2⟩
      intro hn
      apply hne
      show b.cell = none
      rw [hb]; exact hn
    | tensor b s sh sy nu ct m w =>
      rw [reconstructWith] at h
      obtain ⟨s', hs', h⟩ := bind_ok h
      obtain ⟨b', shape', d', number, count, m', rfl, -, -, hc1, -, -, -, h1, h2, -, -,
        ⟨b1, hb1, hbc1⟩, -⟩ := mkTensorOf_ok h
      rw [reconstruct, (hs s (by simp [children])).fixed] at hf
      have hf : mkTensorOf s (some sh) (.dict sy) s.variant = _ := hf
      obtain ⟨b0, shape0, d0, number0, count0, m0, h0, -, -, hc0, -, -, -, h10, h20, -, -,
        ⟨b2, hb2, hbc2⟩, -⟩ := mkTensorOf_ok hf
      cases h0
      cases h1 sh rfl
      cases h2 sy rfl
      have hcc : count = ct := by rw [hc1, hc0]
      have := ih s (by simp [children]) hs'
      have := moved_mixed (replicate_forall₂ this ct) (mixedBase_cell hb2)
        (mixedBase_cell (hcc ▸ hb1))
      refine ⟨fun hne => ?_, ?_⟩
      · show b'.cell = _
        rw [hbc1]; exact this.1 (by rw [← hbc2]; exact hne)
      · show b'.cell = _ ∨ b'.cell = _
        rw [hbc1]; exact this.2
    | product b subs =>
      rw [reconstructWith] at h
      obtain ⟨es, hes, h⟩ := bind_ok h
      have := mkProduct_cell h
      exact ⟨fun _ => this, .inr this⟩
    | enriched b n subs =>
      rw [reconstructWith] at h
      obtain ⟨es, hes, h⟩ := bind_ok h
      rw [reconstruct, reconstructs_of_good (es := subs) (hs ·)] at hf
      have hl := list (subs := subs) (fun s hs => hs) hes
      cases hl with
      | nil => cases h
      | cons ha _ =>
        show (UElem.cell _ ≠ none → _) ∧ _
        rw [mkEnriched_cell h, mkEnriched_cell hf]
        exact ha
    | hdiv b s =>
      rw [reconstructWith] at h
      obtain ⟨s', hs', h⟩ := bind_ok h
      rw [reconstruct, (hs s (by simp [children])).fixed] at hf
      show (UElem.cell _ ≠ none → _) ∧ _
      rw [mkHDiv_cell h, mkHDiv_cell hf]
      exact ih s (by simp [children]) hs'
    | hcurl b s =>
      rw [reconstructWith] at h
      obtain ⟨s', hs', h⟩ := bind_ok h
      rw [reconstruct, (hs s (by simp [children])).fixed] at hf
      show (UElem.cell _ ≠ none → _) ∧ _
      rw [mkHCurl_cell h, mkHCurl_cell hf]
      exact ih s (by simp [children]) hs'
    | withMapping s m =>
      rw [reconstructWith] at h
      obtain ⟨s', hs', h⟩ := bind_ok h
      obtain ⟨-, rfl⟩ := mkWithMapping_ok h
      have := ih s (by simp [children]) hs'
      exact this
    | restricted b s dom =>
      rw [reconstructWith] at h
      obtain ⟨s', hs', h⟩ := bind_ok h
      obtain ⟨-, sh, -, rfl⟩ := mkRestricted_ok h
      rw [reconstruct, (hs s (by simp [children])).fixed] at hf
      obtain ⟨-, sh0, -, h0⟩ := mkRestricted_ok hf
      injection h0 with hb
      have := ih s (by simp [children]) hs'
      refine ⟨fun hne => this.1 ?_, this.2⟩
      intro hn
      apply hne
      show b.cell = none
      rw [hb]; exact hn
    | broken b s =>
      rw [reconstructWith] at h
      obtain ⟨s', hs', h⟩ := bind_ok h
      obtain ⟨sh, -, rfl⟩ := mkBroken_ok h
      rw [reconstruct, (hs s (by simp [children])).fixed] at hf
      obtain ⟨sh0, -, h0⟩ := mkBroken_ok hf
      injection h0 with hb
      have := ih s (by simp [children]) hs'
      refine ⟨fun hne => this.1 ?_, this.2⟩
      intro hn
      apply hne
      show b.cell = none
      rw [hb]; exact hn

mutual
/-- Without products every simple part is moved. -/
theorem reconstructWith_parts {n : CellName} : ∀ {e e' : UElem}, NoProduct e →
    reconstructWith { cell := some (some (.named n)) } e = .ok e' →
    ∀ p ∈ leaves e', p.cell = some (.named n)
  | .fe b o so m v em, e', _, h => by
    rw [reconstructWith] at h
    simp only [Option.isSome_none, Bool.false_eq_true, if_false, Option.join_some,
      Option.some_or] at h
    rw [newFe, newFeOn] at h
    have hc := mkFe_cell h
    obtain ⟨d, -, rfl⟩ := mkFe_ok h
    rw [leaves]
    intro p hp
    rw [List.mem_singleton.1 hp]; exact hc
  | .mixed b subs, e', hn, h => by
    rw [NoProduct] at hn
    rw [reconstructWith] at h
    obtain ⟨es, hes, h⟩ := bind_ok h
    obtain ⟨b', -, rfl⟩ := mkMixed_ok h
    rw [leaves]
    exact reconstructsWith_parts hn hes
  | .vector b s dim v, e', hn, h => by
    rw [NoProduct] at hn
    rw [reconstructWith] at h
    obtain ⟨s', hs, h⟩ := bind_ok h
    obtain ⟨n, sh, rfl, -⟩ := mkVectorOf_ok h
    rw [leaves]
    exact reconstructWith_parts hn hs
  | .tensor b s sh sy nu c m v, e', hn, h => by
    rw [NoProduct] at hn
    rw [reconstructWith] at h
    obtain ⟨s', hs, h⟩ := bind_ok h
    obtain ⟨b', shape', d', number, count, m', rfl, -⟩ := mkTensorOf_ok h
    rw [leaves]
    exact reconstructWith_parts hn hs
  | .product b subs, e', hn, h => by rw [NoProduct] at hn; exact hn.elim
  | .enriched b nd subs, e', hn, h => by
    rw [NoProduct] at hn
    rw [reconstructWith] at h
    obtain ⟨es, hes, h⟩ := bind_ok h
    obtain ⟨e0, es', b', -, rfl, -⟩ := mkEnriched_ok h
    rw [leaves]
    exact reconstructsWith_parts hn hes
  | .hdiv b s, e', hn, h => by
    rw [NoProduct] at hn
    rw [reconstructWith] at h
    obtain ⟨s', hs, h⟩ := bind_ok h
    obtain ⟨b', -, rfl⟩ := mkHDiv_ok h
    rw [leaves]
    exact reconstructWith_parts hn hs
  | .hcurl b s, e', hn, h => by
    rw [NoProduct] at hn
    rw [reconstructWith] at h
    obtain ⟨s', hs, h⟩ := bind_ok h
    obtain ⟨b', -, rfl⟩ := mkHCurl_ok h
    rw [leaves]
    exact reconstructWith_parts hn hs
  | .withMapping s m, e', hn, h => by
    rw [NoProduct] at hn
    rw [reconstructWith] at h
    obtain ⟨s', hs, h⟩ := bind_ok h
    obtain ⟨-, rfl⟩ := mkWithMapping_ok h
    rw [leaves]
    exact reconstructWith_parts hn hs
  | .restricted b s d, e', hn, h => by
    rw [NoProduct] at hn
    rw [reconstructWith] at h
    obtain ⟨s', hs, h⟩ := bind_ok h
    obtain ⟨-, sh, -, rfl⟩ := mkRestricted_ok h
    rw [leaves]
    exact reconstructWith_parts hn hs
  | .broken b s, e', hn, h => by
    rw [NoProduct] at hn
    rw [reconstructWith] at h
    obtain ⟨s', hs, h⟩ := bind_ok h
    obtain ⟨sh, -, rfl⟩ := mkBroken_ok h
    rw [leaves]
    exact reconstructWith_parts hn hs
theorem reconstructsWith_parts {n : CellName} : ∀ {es es' : List UElem}, NoProducts es →
    reconstructsWith { cell := some (some (.named n)) } es = .ok es' →
    ∀ p ∈ leavess es', p.cell = some (.named n)
  | [], es', _, h => by
    rw [reconstructsWith] at h; cases h; rw [leavess]; simp
  | e :: es, es', hn, h => by
    rw [NoProducts] at hn
    rw [reconstructsWith] at h
    obtain ⟨a, ha, h⟩ := bind_ok h
    obtain ⟨as, has, h⟩ := bind_ok h
    cases h
    rw [leavess]
    intro p hp
    rcases List.mem_append.1 hp with hp | hp
    · exact reconstructWith_parts hn.1 ha p hp
    · exact reconstructsWith_parts hn.2 has p hp
end

end FInAT.Ufl
