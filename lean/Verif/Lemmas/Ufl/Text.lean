import Verif.Spec.UflText
import Verif.Lemmas.Ufl.Reconstruct

/-!
# Lemmas on the text of UFL elements
-/

namespace FInAT.Ufl

open FInAT

/-! ## A text can be read in one way only -/

theorem Expr.text_head (e : Expr) : ∃ t r, e.text = t :: r ∧ t ≠ .rpar ∧ t ≠ .comma ∧ ∀ k, t ≠ .kw k := by
  cases e <;> refine ⟨_, _, by rw [Expr.text], ?_, ?_, ?_⟩ <;> simp

theorem keyText_cancel {k k' : Option String} {e e' : Expr} {r r' : List Tok}
    (h : keyText k ++ (e.text ++ r) = keyText k' ++ (e'.text ++ r')) : k = k' ∧ e.text ++ r = e'.text ++ r' := by
  obtain ⟨t, s, ht, _, _, hk⟩ := e.text_head
  obtain ⟨t', s', ht', _, _, hk'⟩ := e'.text_head
  cases k with
  | none =>
    cases k' with
    | none => exact ⟨rfl, h⟩
    | some k' =>
      rw [ht] at h
      simp only [keyText, List.nil_append, List.cons_append, List.cons.injEq] at h
      exact absurd h.1 (hk k')
  | some k =>
    cases k' with
    | none =>
      rw [ht'] at h
      simp only [keyText, List.nil_append, List.cons_append, List.cons.injEq] at h
      exact absurd h.1.symm (hk' k)
    | some k' =>
      simp only [keyText, List.nil_append, List.cons_append, List.cons.injEq, Tok.kw.injEq] at h
      exact ⟨by rw [h.1], h.2⟩

mutual
theorem Expr.text_cancel : ∀ (a b : Expr) {r r' : List Tok}, a.text ++ r = b.text ++ r' → a = b ∧ r = r'
  | .call n as, b, r, r', h => by
    cases b with
    | call m bs =>
      simp only [Expr.text, List.cons_append, List.append_assoc, List.nil_append, List.cons.injEq, Tok.name.injEq,
        true_and] at h
      obtain ⟨h1, h2⟩ := Args.text_cancel as bs h.2
      exact ⟨by rw [h.1, h1], h2⟩
    | _ => simp [Expr.text] at h
  | .str s, b, r, r', h => by cases b <;> simp [Expr.text] at h ⊢; exact h
  | .cell s, b, r, r', h => by cases b <;> simp [Expr.text] at h ⊢; exact h
  | .order s, b, r, r', h => by cases b <;> simp [Expr.text] at h ⊢; exact h
  | .nat s, b, r, r', h => by cases b <;> simp [Expr.text] at h ⊢; exact h
  | .shape s, b, r, r', h => by cases b <;> simp [Expr.text] at h ⊢; exact h
  | .sym s, b, r, r', h => by cases b <;> simp [Expr.text] at h ⊢; exact h
theorem Args.text_cancel : ∀ (a b : Args) {r r' : List Tok}, a.text ++ .rpar :: r = b.text ++ .rpar :: r' → a = b ∧ r = r'
  | .nil, b, r, r', h => by
    cases b with
    | nil => simpa [Args.text] using h
    | cons k e bs =>
      obtain ⟨t, s, ht, hr, _, _⟩ := e.text_head
      cases k <;> simp [Args.text, keyText, ht] at h
      exact absurd h.1.symm hr
  | .cons k e as, b, r, r', h => by
    cases b with
    | nil =>
      obtain ⟨t, s, ht, hr, _, _⟩ := e.text_head
      cases k <;> simp [Args.text, keyText, ht] at h
      exact absurd h.1 hr
    | cons k' e' bs =>
      simp only [Args.text, List.append_assoc] at h
      obtain ⟨h1, h2⟩ := keyText_cancel h
      obtain ⟨h3, h4⟩ := Expr.text_cancel e e' h2
      obtain ⟨h5, h6⟩ := Args.tail_cancel as bs h4
      exact ⟨by rw [h1, h3, h5], h6⟩
theorem Args.tail_cancel : ∀ (a b : Args) {r r' : List Tok}, a.tail ++ .rpar :: r = b.tail ++ .rpar :: r' → a = b ∧ r = r'
  | .nil, b, r, r', h => by
    cases b with
    | nil => simpa [Args.tail] using h
    | cons k e bs => simp [Args.tail] at h
  | .cons k e as, b, r, r', h => by
    cases b with
    | nil => simp [Args.tail] at h
    | cons k' e' bs =>
      simp only [Args.tail, List.cons_append, List.append_assoc, List.cons.injEq, true_and] at h
      obtain ⟨h1, h2⟩ := keyText_cancel h
      obtain ⟨h3, h4⟩ := Expr.text_cancel e e' h2
      obtain ⟨h5, h6⟩ := Args.tail_cancel as bs h4
      exact ⟨by rw [h1, h3, h5], h6⟩
end

/-! ## The expression of an element -/

/-- `, key=value` if the value is given. -/
def optArg (k : String) (v : Option String) (rest : Args) : Args :=
  match v with
  | none => rest
  | some s => .cons (some k) (.str s) rest

theorem optArg_tail (k : String) (v : Option String) (rest : Args) : (optArg k v rest).tail = optKw k v ++ rest.tail := by
  cases v with
  | none => rfl
  | some s => simp [optArg, optKw, Args.tail, keyText, Expr.text]

mutual
/-- The call that builds an element. -/
def expr : UElem → Expr
  | .fe b o _ _ v _ => .call "FiniteElement" (.cons none (.str b.family) (.cons none (.cell b.cell) (.cons none (.order o)
      (optArg "quad_scheme" b.quadScheme (optArg "variant" v .nil)))))
  | .mixed _ subs => .call "MixedElement" (exprs subs .nil)
  | .vector _ e dim v => .call "VectorElement" (.cons none (expr e) (.cons (some "dim") (.nat dim) (optArg "variant" v .nil)))
  | .tensor _ e shape sym _ _ _ v => .call "TensorElement" (.cons none (expr e) (.cons (some "shape") (.shape shape)
      (.cons (some "symmetry") (.sym sym) (optArg "variant" v .nil))))
  | .product b subs => .call "TensorProductElement" (exprs subs (.cons (some "cell") (.cell b.cell) .nil))
  | .enriched _ nodal subs => .call (if nodal then "NodalEnrichedElement" else "EnrichedElement") (exprs subs .nil)
  | .hdiv _ e => .call "HDivElement" (.cons none (expr e) .nil)
  | .hcurl _ e => .call "HCurlElement" (.cons none (expr e) .nil)
  | .withMapping e m => .call "WithMapping" (.cons none (expr e) (.cons none (.str m) .nil))
  | .restricted _ e d => .call "RestrictedElement" (.cons none (expr e) (.cons none (.str d) .nil))
  | .broken _ e => .call "BrokenElement" (.cons none (expr e) .nil)
/-- Elements as arguments, before others. -/
def exprs : List UElem → Args → Args
  | [], rest => rest
  | e :: es, rest => .cons none (expr e) (exprs es rest)
end

mutual
theorem expr_text : ∀ {e : UElem}, Good e → (expr e).text = repr e
  | .fe b o _ _ v _, _ => by
    simp [expr, repr, Expr.text, Args.text, Args.tail, keyText, optArg_tail]
  | .mixed _ subs, h => by
    rw [expr, repr, Expr.text, exprs_text (es := subs) (rest := .nil) h.sub]
    cases subs <;> simp [reprs, Args.text, Args.tail]
  | .vector _ e dim v, h => by
    simp [expr, repr, Expr.text, Args.text, Args.tail, keyText, optArg_tail,
      expr_text (h.sub e (by simp [children]))]
  | .tensor _ e shape sym _ _ _ v, h => by
    simp [expr, repr, Expr.text, Args.text, Args.tail, keyText, optArg_tail,
      expr_text (h.sub e (by simp [children]))]
  | .product b subs, h => by
    have hne : subs ≠ [] := by
      rintro rfl
      have := h.fixed
      rw [Fixed, reconstruct, reconstructs] at this
      cases this
    rw [expr, repr, Expr.text, exprs_text (es := subs) (rest := .cons (some "cell") (.cell b.cell) .nil) h.sub, if_neg hne]
    simp [Args.tail, keyText, Expr.text]
  | .enriched _ nodal subs, h => by
    rw [expr, repr, Expr.text, exprs_text (es := subs) (rest := .nil) h.sub]
    cases subs <;> simp [reprs, Args.text, Args.tail]
  | .hdiv _ e, h => by
    simp [expr, repr, Expr.text, Args.text, Args.tail, keyText, expr_text (h.sub e (by simp [children]))]
  | .hcurl _ e, h => by
    simp [expr, repr, Expr.text, Args.text, Args.tail, keyText, expr_text (h.sub e (by simp [children]))]
  | .withMapping e m, h => by
    simp [expr, repr, Expr.text, Args.text, Args.tail, keyText, expr_text (h.sub e (by simp [children]))]
  | .restricted _ e d, h => by
    simp [expr, repr, Expr.text, Args.text, Args.tail, keyText, expr_text (h.sub e (by simp [children]))]
  | .broken _ e, h => by
    simp [expr, repr, Expr.text, Args.text, Args.tail, keyText, expr_text (h.sub e (by simp [children]))]
theorem exprs_text : ∀ {es : List UElem} {rest : Args}, (∀ e ∈ es, Good e) →
    (exprs es rest).text = reprs es ++ (if es = [] then rest.text else rest.tail)
  | [], rest, _ => by simp [exprs, reprs]
  | e :: es, rest, h => by
    simp [exprs, reprs, Args.text, keyText, expr_text (h e (by simp)),
      exprs_tail (es := es) (rest := rest) fun s hs => h s (by simp [hs])]
theorem exprs_tail : ∀ {es : List UElem} {rest : Args}, (∀ e ∈ es, Good e) →
    (exprs es rest).tail = reprsTail es ++ rest.tail
  | [], rest, _ => by simp [exprs, reprsTail]
  | e :: es, rest, h => by
    simp [exprs, reprsTail, Args.tail, keyText, expr_text (h e (by simp)),
      exprs_tail (es := es) (rest := rest) fun s hs => h s (by simp [hs])]
end

/-! ## The value of the expression -/

theorem asElems_map : ∀ es : List UElem, asElems (es.map fun e => (none, .elem e)) = .ok es
  | [] => rfl
  | e :: es => by
    rw [List.map_cons, asElems, asElems_map es]
    rfl

theorem asElemsCell_map (c : Option UCell) : ∀ es : List UElem,
    asElemsCell ((es.map fun e => (none, .elem e)) ++ [(some "cell", .cell c)]) = .ok (es, c)
  | [] => rfl
  | e :: es => by
    rw [List.map_cons, List.cons_append, asElemsCell, asElemsCell_map c es]
    rfl

theorem fixed_sub {e : UElem} (h : Good e) {s : UElem} (hs : s ∈ children e) : reconstruct s = .ok s := (h.sub s hs).fixed

theorem fixed_subs {e : UElem} (h : Good e) : reconstructs (children e) = .ok (children e) :=
  reconstructs_fixed fun s hs => (h.sub s hs).fixed

mutual
theorem expr_value : ∀ {e : UElem}, Good e → (expr e).value = .ok (.elem e)
  | .fe b o so m v em, h => by
    have hf := h.fixed
    rw [Fixed, reconstruct] at hf
    obtain ⟨fam, c, deg, q, sh⟩ := b
    cases q <;> cases v <;>
      simp only [expr, optArg, Expr.value, Args.values, bind, Except.bind, construct, hf]
  | .mixed b subs, h => by
    have hf := h.fixed
    have hs := fixed_subs h
    rw [children] at hs
    rw [Fixed, reconstruct, hs] at hf
    have hv := exprs_values (es := subs) (rest := .nil) h.sub
    simp only [Args.values, bind, Except.bind, List.append_nil] at hv hf
    simp only [expr, Expr.value, hv, bind, Except.bind, construct, asElems_map, hf]
  | .vector b e dim v, h => by
    have hf := h.fixed
    have hs := fixed_sub h (s := e) (by simp [children])
    have hv := expr_value (h.sub e (by simp [children]))
    rw [Fixed, reconstruct, hs] at hf
    simp only [bind, Except.bind] at hf
    cases v <;> simp only [expr, optArg, Expr.value, Args.values, bind, Except.bind, construct, hv, hf]
  | .tensor b e shape sym x y z v, h => by
    have hf := h.fixed
    have hs := fixed_sub h (s := e) (by simp [children])
    have hv := expr_value (h.sub e (by simp [children]))
    rw [Fixed, reconstruct, hs] at hf
    simp only [bind, Except.bind] at hf
    cases v <;> simp only [expr, optArg, Expr.value, Args.values, bind, Except.bind, construct, hv, hf]
  | .product b subs, h => by
    have hf := h.fixed
    have hs := fixed_subs h
    rw [children] at hs
    rw [Fixed, reconstruct, hs] at hf
    have hv := exprs_values (es := subs) (rest := .cons (some "cell") (.cell b.cell) .nil) h.sub
    simp only [Args.values, Expr.value, bind, Except.bind] at hv hf
    simp only [expr, Expr.value, hv, bind, Except.bind, construct, asElemsCell_map, hf]
  | .enriched b nodal subs, h => by
    have hf := h.fixed
    have hs := fixed_subs h
    rw [children] at hs
    rw [Fixed, reconstruct, hs] at hf
    have hv := exprs_values (es := subs) (rest := .nil) h.sub
    simp only [Args.values, bind, Except.bind, List.append_nil] at hv hf
    cases nodal <;> simp only [expr, Expr.value, hv, bind, Except.bind, if_true, if_false, Bool.false_eq_true, construct, asElems_map, hf]
  | .hdiv b e, h => by
    have hf := h.fixed
    have hs := fixed_sub h (s := e) (by simp [children])
    have hv := expr_value (h.sub e (by simp [children]))
    rw [Fixed, reconstruct, hs] at hf
    simp only [bind, Except.bind] at hf
    simp only [expr, Expr.value, Args.values, bind, Except.bind, construct, hv, hf]
  | .hcurl b e, h => by
    have hf := h.fixed
    have hs := fixed_sub h (s := e) (by simp [children])
    have hv := expr_value (h.sub e (by simp [children]))
    rw [Fixed, reconstruct, hs] at hf
    simp only [bind, Except.bind] at hf
    simp only [expr, Expr.value, Args.values, bind, Except.bind, construct, hv, hf]
  | .withMapping e m, h => by
    have hf := h.fixed
    have hs := fixed_sub h (s := e) (by simp [children])
    have hv := expr_value (h.sub e (by simp [children]))
    rw [Fixed, reconstruct, hs] at hf
    simp only [bind, Except.bind] at hf
    simp only [expr, Expr.value, Args.values, bind, Except.bind, construct, hv, hf]
  | .restricted b e d, h => by
    have hf := h.fixed
    have hs := fixed_sub h (s := e) (by simp [children])
    have hv := expr_value (h.sub e (by simp [children]))
    rw [Fixed, reconstruct, hs] at hf
    simp only [bind, Except.bind] at hf
    simp only [expr, Expr.value, Args.values, bind, Except.bind, construct, hv, hf]
  | .broken b e, h => by
    have hf := h.fixed
    have hs := fixed_sub h (s := e) (by simp [children])
    have hv := expr_value (h.sub e (by simp [children]))
    rw [Fixed, reconstruct, hs] at hf
    simp only [bind, Except.bind] at hf
    simp only [expr, Expr.value, Args.values, bind, Except.bind, construct, hv, hf]
theorem exprs_values : ∀ {es : List UElem} {rest : Args}, (∀ e ∈ es, Good e) →
    (exprs es rest).values = (do .ok ((es.map fun e => (none, .elem e)) ++ (← rest.values)))
  | [], rest, _ => by
    rw [exprs]
    cases rest.values <;> rfl
  | e :: es, rest, h => by
    rw [exprs, Args.values, expr_value (h e (by simp)), exprs_values (es := es) (rest := rest) fun s hs => h s (by simp [hs])]
    cases rest.values <;> rfl
end

end FInAT.Ufl
