import Verif.Model.Ufl.Repr
import Verif.Lemmas.Ufl.Reconstruct

/-!
# The text of an element determines the element
-/

namespace FInAT.Ufl

/-- What can follow an element in a text. -/
def Stop : List Tok → Prop
  | .comma :: _ => True
  | .rpar :: _ => True
  | [] => True
  | _ => False

theorem repr_head (e : UElem) : ∃ t, repr e = .name (className e) :: t := by
  cases e <;> simp [repr, className]

theorem optKw_cancel {k : String} {v v' : Option String} {s t : List Tok}
    (hs : ∀ s', s = .comma :: .kw k :: s' → False) (ht : ∀ s', t = .comma :: .kw k :: s' → False)
    (h : optKw k v ++ s = optKw k v' ++ t) : v = v' ∧ s = t := by
  cases v with
  | none =>
    cases v' with
    | none => exact ⟨rfl, h⟩
    | some b => exact (hs _ h).elim
  | some a =>
    cases v' with
    | none => exact (ht _ h.symm).elim
    | some b =>
      simp [optKw] at h
      exact ⟨by rw [h.1], h.2⟩

theorem fixed_inj {a b : UElem} (ha : Fixed a) (hb : Fixed b)
    (h : reconstruct a = reconstruct b) : a = b := by
  unfold Fixed at ha hb
  rw [ha, hb] at h
  cases h
  rfl

theorem rpar_ne {k : String} (s : List Tok) :
    ∀ s', Tok.rpar :: s = .comma :: .kw k :: s' → False := by
  intro s' h; cases h

theorem is_fe {b : UElem} (h : "FiniteElement" = className b) :
    ∃ b2 o2 so2 m2 v2 e2, b = .fe b2 o2 so2 m2 v2 e2 := by
  cases b
  case fe => exact ⟨_, _, _, _, _, _, rfl⟩
  case enriched n _ => cases n <;> simp [className] at h
  all_goals simp [className] at h

theorem is_mixed {b : UElem} (h : "MixedElement" = className b) :
    ∃ b2 s2, b = .mixed b2 s2 := by
  cases b
  case mixed => exact ⟨_, _, rfl⟩
  case enriched n _ => cases n <;> simp [className] at h
  all_goals simp [className] at h

theorem is_vector {b : UElem} (h : "VectorElement" = className b) :
    ∃ b2 e2 d2 v2, b = .vector b2 e2 d2 v2 := by
  cases b
  case vector => exact ⟨_, _, _, _, rfl⟩
  case enriched n _ => cases n <;> simp [className] at h
  all_goals simp [className] at h

theorem is_tensor {b : UElem} (h : "TensorElement" = className b) :
    ∃ b2 e2 sh2 sy2 n2 c2 m2 v2, b = .tensor b2 e2 sh2 sy2 n2 c2 m2 v2 := by
  cases b
  case tensor => exact ⟨_, _, _, _, _, _, _, _, rfl⟩
  case enriched n _ => cases n <;> simp [className] at h
  all_goals simp [className] at h

theorem is_product {b : UElem} (h : "TensorProductElement" = className b) :
    ∃ b2 s2, b = .product b2 s2 := by
  cases b
  case product => exact ⟨_, _, rfl⟩
  case enriched n _ => cases n <;> simp [className] at h
  all_goals simp [className] at h

theorem is_hdiv {b : UElem} (h : "HDivElement" = className b) :
    ∃ b2 e2, b = .hdiv b2 e2 := by
  cases b
  case hdiv => exact ⟨_, _, rfl⟩
  case enriched n _ => cases n <;> simp [className] at h
  all_goals simp [className] at h

theorem is_hcurl {b : UElem} (h : "HCurlElement" = className b) :
    ∃ b2 e2, b = .hcurl b2 e2 := by
  cases b
  case hcurl => exact ⟨_, _, rfl⟩
  case enriched n _ => cases n <;> simp [className] at h
  all_goals simp [className] at h

theorem is_withMapping {b : UElem} (h : "WithMapping" = className b) :
    ∃ e2 m2, b = .withMapping e2 m2 := by
  cases b
  case withMapping => exact ⟨_, _, rfl⟩
  case enriched n _ => cases n <;> simp [className] at h
  all_goals simp [className] at h

theorem is_restricted {b : UElem} (h : "RestrictedElement" = className b) :
    ∃ b2 e2 m2, b = .restricted b2 e2 m2 := by
  cases b
  case restricted => exact ⟨_, _, _, rfl⟩
  case enriched n _ => cases n <;> simp [className] at h
  all_goals simp [className] at h

theorem is_broken {b : UElem} (h : "BrokenElement" = className b) :
    ∃ b2 e2, b = .broken b2 e2 := by
  cases b
  case broken => exact ⟨_, _, rfl⟩
  case enriched n _ => cases n <;> simp [className] at h
  all_goals simp [className] at h

theorem is_enriched {n : Bool} {b : UElem}
    (h : (if n then "NodalEnrichedElement" else "EnrichedElement") = className b) :
    ∃ b2 s2, b = .enriched b2 n s2 := by
  cases b
  case enriched n' _ => cases n <;> cases n' <;> simp [className] at h <;> exact ⟨_, _, rfl⟩
  all_goals cases n <;> simp [className] at h

mutual
/-- Reading an element from a text. -/
theorem repr_unique : ∀ (a b : UElem) (s t : List Tok), Good a → Good b →
    repr a ++ s = repr b ++ t → a = b ∧ s = t := by
  intro a b s t ha hb h
  have hk : className a = className b := by
    obtain ⟨ta, hta⟩ := repr_head a
    obtain ⟨tb, htb⟩ := repr_head b
    rw [hta, htb] at h
    simp only [List.cons_append, List.cons.injEq, Tok.name.injEq] at h
    exact h.1
  match a, b, ha, hb, h, hk with
  | .fe b1 o1 so1 m1 v1 e1, b, ha, hb, h, hk =>
    obtain ⟨b2, o2, so2, m2, v2, e2, rfl⟩ := is_fe hk
    rw [repr, repr] at h
    simp only [List.append_assoc, List.cons_append, List.nil_append, List.cons.injEq,
      Tok.str.injEq, Tok.cell.injEq, Tok.order.injEq, true_and] at h
    obtain ⟨h1, h2, h3, h⟩ := h
    have hn : ∀ (v : Option String) (s : List Tok) s',
        optKw "variant" v ++ (Tok.rpar :: s) = .comma :: .kw "quad_scheme" :: s' → False := by
      intro v s s' h
      cases v <;> simp [optKw] at h
    obtain ⟨h4, h⟩ := optKw_cancel (hn _ _) (hn _ _) h
    obtain ⟨h5, h⟩ := optKw_cancel (rpar_ne _) (rpar_ne _) h
    simp only [List.cons.injEq, true_and] at h
    refine ⟨fixed_inj ha.fixed hb.fixed ?_, h⟩
    rw [reconstruct, reconstruct, h1, h2, h3, h4, h5]
  | .mixed b1 s1, b, ha, hb, h, hk =>
    obtain ⟨b2, s2, rfl⟩ := is_mixed hk
    rw [repr, repr] at h
    simp only [List.append_assoc, List.cons_append, List.nil_append, List.cons.injEq,
      true_and] at h
    obtain ⟨h1, h⟩ := reprs_unique s1 s2 _ _ ha.sub hb.sub (by simp) (by simp)
      (by simp) (by simp) h
    simp only [List.cons.injEq, true_and] at h
    refine ⟨fixed_inj ha.fixed hb.fixed ?_, h⟩
    rw [reconstruct, reconstruct, h1]
  | .vector b1 e1 d1 v1, b, ha, hb, h, hk =>
    obtain ⟨b2, e2, d2, v2, rfl⟩ := is_vector hk
    rw [repr, repr] at h
    simp only [List.append_assoc, List.cons_append, List.nil_append, List.cons.injEq,
      true_and] at h
    obtain ⟨h1, h⟩ := repr_unique e1 e2 _ _ (ha.sub _ (by simp [children]))
      (hb.sub _ (by simp [children])) h
    simp only [List.cons.injEq, Tok.nat.injEq, true_and] at h
    obtain ⟨h2, h⟩ := h
    obtain ⟨h3, h⟩ := optKw_cancel (rpar_ne _) (rpar_ne _) h
    simp only [List.cons.injEq, true_and] at h
    refine ⟨fixed_inj ha.fixed hb.fixed ?_, h⟩
    rw [reconstruct, reconstruct, h1, h2]
  | .tensor b1 e1 sh1 sy1 n1 c1 m1 v1, b, ha, hb, h, hk =>
    obtain ⟨b2, e2, sh2, sy2, n2, c2, m2, v2, rfl⟩ := is_tensor hk
    rw [repr, repr] at h
    simp only [List.append_assoc, List.cons_append, List.nil_append, List.cons.injEq,
      true_and] at h
    obtain ⟨h1, h⟩ := repr_unique e1 e2 _ _ (ha.sub _ (by simp [children]))
      (hb.sub _ (by simp [children])) h
    simp only [List.cons.injEq, Tok.shape.injEq, Tok.sym.injEq, true_and] at h
    obtain ⟨h2, h3, h⟩ := h
    obtain ⟨h4, h⟩ := optKw_cancel (rpar_ne _) (rpar_ne _) h
    simp only [List.cons.injEq, true_and] at h
    refine ⟨fixed_inj ha.fixed hb.fixed ?_, h⟩
    rw [reconstruct, reconstruct, h1, h2, h3]
  | .product b1 s1, b, ha, hb, h, hk =>
    obtain ⟨b2, s2, rfl⟩ := is_product hk
    rw [repr, repr] at h
    simp only [List.append_assoc, List.cons_append, List.nil_append, List.cons.injEq,
      true_and] at h
    obtain ⟨h1, h⟩ := reprs_unique s1 s2 _ _ ha.sub hb.sub (by simp) (by simp)
      (by simp) (by simp) h
    simp only [List.cons.injEq, Tok.cell.injEq, true_and] at h
    refine ⟨fixed_inj ha.fixed hb.fixed ?_, h.2⟩
    rw [reconstruct, reconstruct, h1, h.1]
  | .enriched b1 n1 s1, b, ha, hb, h, hk =>
    obtain ⟨b2, s2, rfl⟩ := is_enriched hk
    rw [repr, repr] at h
    simp only [List.append_assoc, List.cons_append, List.nil_append, List.cons.injEq,
      true_and] at h
    obtain ⟨h1, h⟩ := reprs_unique s1 s2 _ _ ha.sub hb.sub (by simp) (by simp)
      (by simp) (by simp) h
    simp only [List.cons.injEq, true_and] at h
    refine ⟨fixed_inj ha.fixed hb.fixed ?_, h⟩
    rw [reconstruct, reconstruct, h1]
  | .hdiv b1 e1, b, ha, hb, h, hk =>
    obtain ⟨b2, e2, rfl⟩ := is_hdiv hk
    rw [repr, repr] at h
    simp only [List.append_assoc, List.cons_append, List.nil_append, List.cons.injEq,
      true_and] at h
    obtain ⟨h1, h⟩ := repr_unique e1 e2 _ _ (ha.sub _ (by simp [children]))
      (hb.sub _ (by simp [children])) h
    simp only [List.cons.injEq, true_and] at h
    refine ⟨fixed_inj ha.fixed hb.fixed ?_, h⟩
    rw [reconstruct, reconstruct, h1]
  | .hcurl b1 e1, b, ha, hb, h, hk =>
    obtain ⟨b2, e2, rfl⟩ := is_hcurl hk
    rw [repr, repr] at h
    simp only [List.append_assoc, List.cons_append, List.nil_append, List.cons.injEq,
      true_and] at h
    obtain ⟨h1, h⟩ := repr_unique e1 e2 _ _ (ha.sub _ (by simp [children]))
      (hb.sub _ (by simp [children])) h
    simp only [List.cons.injEq, true_and] at h
    refine ⟨fixed_inj ha.fixed hb.fixed ?_, h⟩
    rw [reconstruct, reconstruct, h1]
  | .withMapping e1 m1, b, ha, hb, h, hk =>
    obtain ⟨e2, m2, rfl⟩ := is_withMapping hk
    rw [repr, repr] at h
    simp only [List.append_assoc, List.cons_append, List.nil_append, List.cons.injEq,
      true_and] at h
    obtain ⟨h1, h⟩ := repr_unique e1 e2 _ _ (ha.sub _ (by simp [children]))
      (hb.sub _ (by simp [children])) h
    simp only [List.cons.injEq, Tok.str.injEq, true_and] at h
    refine ⟨fixed_inj ha.fixed hb.fixed ?_, h.2⟩
    rw [reconstruct, reconstruct, h1, h.1]
  | .restricted b1 e1 m1, b, ha, hb, h, hk =>
    obtain ⟨b2, e2, m2, rfl⟩ := is_restricted hk
    rw [repr, repr] at h
    simp only [List.append_assoc, List.cons_append, List.nil_append, List.cons.injEq,
      true_and] at h
    obtain ⟨h1, h⟩ := repr_unique e1 e2 _ _ (ha.sub _ (by simp [children]))
      (hb.sub _ (by simp [children])) h
    simp only [List.cons.injEq, Tok.str.injEq, true_and] at h
    refine ⟨fixed_inj ha.fixed hb.fixed ?_, h.2⟩
    rw [reconstruct, reconstruct, h1, h.1]
  | .broken b1 e1, b, ha, hb, h, hk =>
    obtain ⟨b2, e2, rfl⟩ := is_broken hk
    rw [repr, repr] at h
    simp only [List.append_assoc, List.cons_append, List.nil_append, List.cons.injEq,
      true_and] at h
    obtain ⟨h1, h⟩ := repr_unique e1 e2 _ _ (ha.sub _ (by simp [children]))
      (hb.sub _ (by simp [children])) h
    simp only [List.cons.injEq, true_and] at h
    refine ⟨fixed_inj ha.fixed hb.fixed ?_, h⟩
    rw [reconstruct, reconstruct, h1]
/-- Reading a list of elements. -/
theorem reprs_unique : ∀ (as bs : List UElem) (s t : List Tok), (∀ x ∈ as, Good x) →
    (∀ x ∈ bs, Good x) → (∀ n u, s ≠ .name n :: u) → (∀ n u, t ≠ .name n :: u) →
    (∀ n u, s ≠ .comma :: .name n :: u) → (∀ n u, t ≠ .comma :: .name n :: u) →
    reprs as ++ s = reprs bs ++ t → as = bs ∧ s = t := by
  intro as bs s t ha hb hs ht hs2 ht2 h
  match as, bs with
  | [], [] => exact ⟨rfl, by simpa [reprs] using h⟩
  | [], b :: bs =>
    obtain ⟨u, hu⟩ := repr_head b
    rw [reprs, reprs, hu] at h
    exact (hs _ _ h).elim
  | a :: as, [] =>
    obtain ⟨u, hu⟩ := repr_head a
    rw [reprs, reprs, hu] at h
    exact (ht _ _ h.symm).elim
  | a :: as, b :: bs =>
    rw [reprs, reprs, List.append_assoc, List.append_assoc] at h
    obtain ⟨h1, h⟩ := repr_unique a b _ _ (ha a List.mem_cons_self) (hb b List.mem_cons_self) h
    obtain ⟨h2, h⟩ := reprsTail_unique as bs s t (fun x m => ha x (List.mem_cons_of_mem _ m))
      (fun x m => hb x (List.mem_cons_of_mem _ m)) hs2 ht2 h
    exact ⟨by rw [h1, h2], h⟩
/-- Reading the rest of a list of elements. -/
theorem reprsTail_unique : ∀ (as bs : List UElem) (s t : List Tok), (∀ x ∈ as, Good x) →
    (∀ x ∈ bs, Good x) →
    (∀ n u, s ≠ .comma :: .name n :: u) → (∀ n u, t ≠ .comma :: .name n :: u) →
    reprsTail as ++ s = reprsTail bs ++ t → as = bs ∧ s = t := by
  intro as bs s t ha hb hs2 ht2 h
  match as, bs with
  | [], [] => exact ⟨rfl, by simpa [reprsTail] using h⟩
  | [], b :: bs =>
    obtain ⟨u, hu⟩ := repr_head b
    rw [reprsTail, reprsTail, hu] at h
    exact (hs2 _ _ h).elim
  | a :: as, [] =>
    obtain ⟨u, hu⟩ := repr_head a
    rw [reprsTail, reprsTail, hu] at h
    exact (ht2 _ _ h.symm).elim
  | a :: as, b :: bs =>
    rw [reprsTail, reprsTail] at h
    simp only [List.cons_append, List.append_assoc, List.cons.injEq, true_and] at h
    obtain ⟨h1, h⟩ := repr_unique a b _ _ (ha a List.mem_cons_self) (hb b List.mem_cons_self) h
    obtain ⟨h2, h⟩ := reprsTail_unique as bs s t (fun x m => ha x (List.mem_cons_of_mem _ m))
      (fun x m => hb x (List.mem_cons_of_mem _ m)) hs2 ht2 h
    exact ⟨by rw [h1, h2], h⟩
end

end FInAT.Ufl
