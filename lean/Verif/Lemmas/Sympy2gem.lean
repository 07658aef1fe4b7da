import Verif.Spec.Sympy2gem
import Verif.Lemmas.Monad

/-! # Lemmas on the translation of symbolic expressions -/

set_option linter.unusedSectionVars false

namespace FInAT.Sympy2gem

open FInAT.Spec.Sympy2gem

variable {K : Type} [Field K] [LinearOrder K]

theorem bind_ok {α β : Type} {x : Except Err α} {f : α → Except Err β} {b : β}
    (h : x >>= f = .ok b) : ∃ a, x = .ok a ∧ f a = .ok b := by
  cases x with
  | error e => cases h
  | ok a => exact ⟨a, rfl, h⟩

/-! ## Reductions -/

theorem collect_single {f : List K → K} (hf : ∀ x, f [x] = x) {v w : Val K}
    (h : collect f [v] = some w) : v = w := by
  cases v with
  | num x => simpa [collect, Val.bool?, Val.num?, hf] using h
  | bool b => simp [collect, Val.bool?] at h
  | nan => simpa [collect, Val.bool?, Val.num?] using h

theorem collect_cons {f : List K → K} {op : K → K → K} (hf : ∀ x y l, f (x :: y :: l) = f (op x y :: l))
    {v u w : Val K} {vs : List (Val K)} (h : collect f (v :: u :: vs) = some w) :
    ∃ vu, arith (fun x y => some (op x y)) v u = some vu ∧ collect f (vu :: vs) = some w := by
  unfold collect at h
  split at h
  · next hall =>
    have hv : v.bool?.isNone := by
      have := List.all_eq_true.1 hall v (by simp); simpa using this
    have hu : u.bool?.isNone := by
      have := List.all_eq_true.1 hall u (by simp); simpa using this
    have hvs : vs.all (fun v => v.bool?.isNone) = true := by
      rw [List.all_eq_true] at hall ⊢
      exact fun x hx => hall x (by simp [hx])
    have hc : ∀ u : Val K, u.bool?.isNone → collect f (u :: vs) = match (u :: vs).mapM Val.num? with
        | some xs => some (.num (f xs))
        | none => some .nan := by
      intro u hu
      exact if_pos (by rw [List.all_cons, hvs, hu]; rfl)
    cases v with
    | bool b => simp [Val.bool?] at hv
    | num x =>
      cases u with
      | bool b => simp [Val.bool?] at hu
      | num y =>
        refine ⟨.num (op x y), rfl, ?_⟩
        rw [hc _ rfl]
        cases hm : vs.mapM (Val.num? (K := K)) with
        | none =>
          simp only [List.mapM_cons, hm, Val.num?] at h ⊢
          simpa using h
        | some xs =>
          simp only [List.mapM_cons, hm, Val.num?] at h ⊢
          simpa [hf] using h
      | nan =>
        refine ⟨.nan, rfl, ?_⟩
        rw [hc _ rfl]
        simp only [List.mapM_cons, Val.num?] at h ⊢
        simpa using h
    | nan =>
      have hn : w = .nan := by
        simp only [List.mapM_cons, Val.num?] at h
        simpa using h.symm
      subst hn
      cases u with
      | bool b => simp [Val.bool?] at hu
      | num y =>
        refine ⟨.nan, rfl, ?_⟩
        rw [hc _ rfl]
        simp [List.mapM_cons, Val.num?]
      | nan =>
        refine ⟨.nan, rfl, ?_⟩
        rw [hc _ rfl]
        simp [List.mapM_cons, Val.num?]
  · exact absurd h (by simp)

variable (pw : K → K → Option K) (σ : String → Option (Val K))

/-- The GEM expressions have these values. -/
abbrev HaveValues (gs : List Gem) (vs : List (Val K)) : Prop :=
  List.Forall₂ (fun g v => eval pw σ g = some v) gs vs

theorem fold_collect {f : List K → K} {op : K → K → K} (hf1 : ∀ x, f [x] = x)
    (hf : ∀ x y l, f (x :: y :: l) = f (op x y :: l)) (mk : Gem → Gem → Gem)
    (hmk : ∀ a b, eval pw σ (mk a b) = (eval pw σ a).bind fun x => (eval pw σ b).bind fun y =>
      arith (fun x y => some (op x y)) x y) :
    ∀ (gs : List Gem) (vs : List (Val K)) (g : Gem) (v w : Val K), HaveValues pw σ gs vs →
      eval pw σ g = some v → collect f (v :: vs) = some w → eval pw σ (gs.foldl mk g) = some w
  | [], _, g, v, w, .nil, hg, hc => by
    rw [List.foldl_nil, hg, collect_single hf1 hc]
  | b :: gs, _, g, v, w, .cons (b := u) hb hgs, hg, hc => by
    obtain ⟨vu, h1, h2⟩ := collect_cons hf hc
    rw [List.foldl_cons]
    refine fold_collect hf1 hf mk hmk gs _ _ vu w hgs ?_ h2
    rw [hmk, hg, hb]
    exact h1

theorem reduce_collect {f : List K → K} {op : K → K → K} (hf1 : ∀ x, f [x] = x)
    (hf : ∀ x y l, f (x :: y :: l) = f (op x y :: l)) (mk : Gem → Gem → Gem)
    (hmk : ∀ a b, eval pw σ (mk a b) = (eval pw σ a).bind fun x => (eval pw σ b).bind fun y =>
      arith (fun x y => some (op x y)) x y)
    {gs : List Gem} {vs : List (Val K)} {g : Gem} {w : Val K} (hgs : HaveValues pw σ gs vs)
    (hr : reduce mk gs = .ok g) (hc : collect f vs = some w) : eval pw σ g = some w := by
  cases hgs with
  | nil => exact absurd hr (by simp [reduce])
  | cons ha hl =>
    obtain rfl := Except.ok.inj hr
    exact fold_collect pw σ hf1 hf mk hmk _ _ _ _ _ hl ha hc

theorem mapM_bool {vs : List (Val K)} {bs : List Bool} (h : vs.mapM Val.bool? = some bs) :
    vs = bs.map .bool := by
  induction vs generalizing bs with
  | nil => obtain rfl : bs = [] := by simpa using h.symm
           rfl
  | cons v vs ih =>
    rw [List.mapM_cons] at h
    cases v with
    | num x => simp [Val.bool?] at h
    | nan => simp [Val.bool?] at h
    | bool b =>
      cases hm : vs.mapM (Val.bool? (K := K)) with
      | none => simp [hm, Val.bool?] at h
      | some cs =>
        have : b :: cs = bs := by simpa [hm, Val.bool?] using h
        subst this
        rw [ih hm]
        rfl

theorem fold_bool (op : Bool → Bool → Bool) (mk : Gem → Gem → Gem)
    (hmk : ∀ a b x y, eval pw σ a = some (.bool x) → eval pw σ b = some (.bool y) →
      eval pw σ (mk a b) = some (.bool (op x y))) :
    ∀ (gs : List Gem) (bs : List Bool) (g : Gem) (b : Bool), HaveValues pw σ gs (bs.map .bool) →
      eval pw σ g = some (.bool b) → eval pw σ (gs.foldl mk g) = some (.bool (bs.foldl op b))
  | [], [], g, b, _, hg => hg
  | a :: gs, c :: bs, g, b, .cons ha hl, hg => by
    rw [List.foldl_cons, List.foldl_cons]
    exact fold_bool op mk hmk gs bs _ _ hl (hmk g a b c hg ha)

theorem foldl_or (bs : List Bool) (b : Bool) : bs.foldl (· || ·) b = (b || bs.any id) := by
  induction bs generalizing b with
  | nil => simp
  | cons c bs ih => rw [List.foldl_cons, ih, List.any_cons, Bool.or_assoc]; rfl

theorem foldl_and (bs : List Bool) (b : Bool) : bs.foldl (· && ·) b = (b && bs.all id) := by
  induction bs generalizing b with
  | nil => simp
  | cons c bs ih => rw [List.foldl_cons, ih, List.all_cons, Bool.and_assoc]; rfl

theorem reduce_or {gs : List Gem} {bs : List Bool} {g : Gem}
    (hgs : HaveValues pw σ gs (bs.map .bool)) (hr : reduce .logicalOr gs = .ok g) :
    eval pw σ g = some (.bool (bs.any id)) := by
  cases bs with
  | nil => cases hgs; exact absurd hr (by simp [reduce])
  | cons b bs =>
    cases hgs with
    | cons ha hl =>
      obtain rfl := Except.ok.inj hr
      rw [fold_bool pw σ (· || ·) .logicalOr _ _ bs _ b hl ha, foldl_or]
      · rfl
      · intro a b x y h1 h2
        cases x <;> simp [eval, h1, h2, Val.bool?]

theorem reduce_and {gs : List Gem} {bs : List Bool} {g : Gem}
    (hgs : HaveValues pw σ gs (bs.map .bool)) (hr : reduce .logicalAnd gs = .ok g) :
    eval pw σ g = some (.bool (bs.all id)) := by
  cases bs with
  | nil => cases hgs; exact absurd hr (by simp [reduce])
  | cons b bs =>
    cases hgs with
    | cons ha hl =>
      obtain rfl := Except.ok.inj hr
      rw [fold_bool pw σ (· && ·) .logicalAnd _ _ bs _ b hl ha, foldl_and]
      · rfl
      · intro a b x y h1 h2
        cases x <;> simp [eval, h1, h2, Val.bool?]

/-! ## Inversion -/

theorem num?_eq {v : Val K} {x : K} (h : v.num? = some x) : v = .num x := by
  cases v <;> simp_all [Val.num?]

theorem bool?_eq {v : Val K} {b : Bool} (h : v.bool? = some b) : v = .bool b := by
  cases v <;> simp_all [Val.bool?]

/-! ## Soundness -/

variable [IsStrictOrderedRing K]
variable {pw σ}
variable {bindings : String → Option Gem} {env : String → Option (Val K)}

mutual

theorem sound (hb : ∀ s g v, bindings s = some g → env s = some v → eval pw σ g = some v) :
    ∀ (t : Sym) (g : Gem) (v : Val K), translate bindings t = .ok g → value pw env t = some v →
      eval pw σ g = some v
  | .add args, g, v, ht, hv => by
    simp only [translate] at ht
    obtain ⟨gs, h1, h2⟩ := bind_ok ht
    simp only [value, Option.bind_eq_bind, Option.bind_eq_some_iff] at hv
    obtain ⟨vs, h3, h4⟩ := hv
    exact reduce_collect pw σ (f := List.sum) (op := (· + ·)) (by simp)
      (fun x y l => by simp [add_assoc]) .sum (fun a b => rfl) (sound_all hb args gs vs h1 h3) h2 h4
  | .mul args, g, v, ht, hv => by
    simp only [translate] at ht
    obtain ⟨gs, h1, h2⟩ := bind_ok ht
    simp only [value, Option.bind_eq_bind, Option.bind_eq_some_iff] at hv
    obtain ⟨vs, h3, h4⟩ := hv
    exact reduce_collect pw σ (f := List.prod) (op := (· * ·)) (by simp)
      (fun x y l => by simp [mul_assoc]) .product (fun a b => rfl) (sound_all hb args gs vs h1 h3)
      h2 h4
  | .pow b e, g, v, ht, hv => by
    simp only [translate] at ht
    obtain ⟨gb, h1, ht⟩ := bind_ok ht
    obtain ⟨ge, h2, ht⟩ := bind_ok ht
    obtain rfl := Except.ok.inj ht
    simp only [value, Option.bind_eq_bind, Option.bind_eq_some_iff] at hv
    obtain ⟨v1, h3, x, e1, v2, h4, y, e2, z, hz, hv⟩ := hv
    obtain rfl := num?_eq e1
    obtain rfl := num?_eq e2
    have := sound hb b gb _ h1 h3
    have := sound hb e ge _ h2 h4
    simp_all [eval, arith]
  | .bool b, g, v, ht, hv => by
    obtain rfl := Except.ok.inj ht
    exact hv
  | .npBool b, g, v, ht, hv => by simp [translate] at ht
  | .int z, g, v, ht, hv => by
    obtain rfl := Except.ok.inj ht
    exact hv
  | .float q, g, v, ht, hv => by
    obtain rfl := Except.ok.inj ht
    exact hv
  | .symbol s, g, v, ht, hv => by
    simp only [translate] at ht
    cases hs : bindings s with
    | none => simp [hs] at ht
    | some g' =>
      rw [hs] at ht
      obtain rfl := Except.ok.inj ht
      exact hb s _ v hs hv
  | .rational p q, g, v, ht, hv => by
    obtain rfl := Except.ok.inj ht
    simp only [value] at hv
    split at hv
    · simp at hv
    · next hq =>
      have : (q : K) ≠ 0 := by exact_mod_cast hq
      simp_all [eval, arith]
  | .abs a, g, v, ht, hv => by
    simp only [translate] at ht
    obtain ⟨ga, h1, ht⟩ := bind_ok ht
    obtain rfl := Except.ok.inj ht
    simp only [value, Option.bind_eq_bind, Option.bind_eq_some_iff] at hv
    obtain ⟨v1, h3, x, e1, hv⟩ := hv
    obtain rfl := num?_eq e1
    have := sound hb a ga _ h1 h3
    simp_all [eval]
  | .not a, g, v, ht, hv => by
    simp only [translate] at ht
    obtain ⟨ga, h1, ht⟩ := bind_ok ht
    obtain rfl := Except.ok.inj ht
    simp only [value, Option.bind_eq_bind, Option.bind_eq_some_iff] at hv
    obtain ⟨v1, h3, x, e1, hv⟩ := hv
    obtain rfl := bool?_eq e1
    have := sound hb a ga _ h1 h3
    simp_all [eval]
  | .or args, g, v, ht, hv => by
    simp only [translate] at ht
    obtain ⟨gs, h1, h2⟩ := bind_ok ht
    simp only [value, Option.bind_eq_bind, Option.bind_eq_some_iff] at hv
    obtain ⟨vs, h3, bs, h4, h5⟩ := hv
    obtain rfl := mapM_bool h4
    rw [reduce_or pw σ (sound_all hb args gs _ h1 h3) h2]
    exact h5
  | .and args, g, v, ht, hv => by
    simp only [translate] at ht
    obtain ⟨gs, h1, h2⟩ := bind_ok ht
    simp only [value, Option.bind_eq_bind, Option.bind_eq_some_iff] at hv
    obtain ⟨vs, h3, bs, h4, h5⟩ := hv
    obtain rfl := mapM_bool h4
    rw [reduce_and pw σ (sound_all hb args gs _ h1 h3) h2]
    exact h5
  | .cmp op a b, g, v, ht, hv => by
    simp only [translate] at ht
    obtain ⟨ga, h1, ht⟩ := bind_ok ht
    obtain ⟨gb, h2, ht⟩ := bind_ok ht
    obtain rfl := Except.ok.inj ht
    simp only [value, Option.bind_eq_bind, Option.bind_eq_some_iff] at hv
    obtain ⟨v1, h3, x, e1, v2, h4, y, e2, hv⟩ := hv
    obtain rfl := num?_eq e1
    obtain rfl := num?_eq e2
    have i1 := sound hb a ga _ h1 h3
    have i2 := sound hb b gb _ h2 h4
    cases op <;> simp_all [eval, Cmp.op, holds]
  | .piecewise args, g, v, ht, hv => by
    simp only [translate] at ht
    simp only [value] at hv
    exact sound_pieces hb args g v ht hv
  | .ite c a b, g, v, ht, hv => by
    simp only [translate] at ht
    obtain ⟨gc, h1, ht⟩ := bind_ok ht
    obtain ⟨ga, h2, ht⟩ := bind_ok ht
    obtain ⟨gb, h3, ht⟩ := bind_ok ht
    obtain rfl := Except.ok.inj ht
    simp only [value, Option.bind_eq_bind, Option.bind_eq_some_iff] at hv
    obtain ⟨v1, h4, x, e1, hv⟩ := hv
    obtain rfl := bool?_eq e1
    have i1 := sound hb c gc _ h1 h4
    cases x
    · have i2 := sound hb b gb _ h3 hv
      simp_all [eval, Val.bool?]
    · have i2 := sound hb a ga _ h2 hv
      simp_all [eval, Val.bool?]
  | .expr _ _, g, v, ht, hv => by simp [translate] at ht
  | .alien _, g, v, ht, hv => by simp [translate] at ht

theorem sound_all (hb : ∀ s g v, bindings s = some g → env s = some v → eval pw σ g = some v) :
    ∀ (ts : List Sym) (gs : List Gem) (vs : List (Val K)), translateAll bindings ts = .ok gs →
      values pw env ts = some vs → HaveValues pw σ gs vs
  | [], gs, vs, ht, hv => by
    obtain rfl := Except.ok.inj ht
    obtain rfl : vs = [] := by simpa [values] using hv.symm
    exact .nil
  | t :: ts, gs, vs, ht, hv => by
    simp only [translateAll] at ht
    obtain ⟨g, h1, ht⟩ := bind_ok ht
    obtain ⟨gs', h2, ht⟩ := bind_ok ht
    obtain rfl := Except.ok.inj ht
    simp only [values, Option.bind_eq_bind, Option.bind_eq_some_iff] at hv
    obtain ⟨v, h3, vs', h4, hv⟩ := hv
    obtain rfl := Option.some.inj hv
    exact .cons (sound hb t g v h1 h3) (sound_all hb ts gs' vs' h2 h4)

theorem sound_pieces (hb : ∀ s g v, bindings s = some g → env s = some v → eval pw σ g = some v) :
    ∀ (ps : List (Sym × Sym)) (g : Gem) (v : Val K), translatePieces bindings ps = .ok g →
      firstTrue pw env ps = some v → eval pw σ g = some v
  | [], g, v, ht, hv => by
    obtain rfl := Except.ok.inj ht
    simpa [firstTrue, eval] using hv
  | (t, c) :: ps, g, v, ht, hv => by
    simp only [translatePieces] at ht
    simp only [firstTrue, Option.bind_eq_bind, Option.bind_eq_some_iff] at hv
    obtain ⟨v1, h4, x, e1, hv⟩ := hv
    obtain rfl := bool?_eq e1
    split at ht
    · next hl =>
      have hx : x = true := by
        revert h4 hl
        cases c <;> simp [literalTrue, value]
        all_goals rintro rfl rfl; rfl
      subst hx
      exact sound hb t g v ht hv
    · obtain ⟨rest, h1, ht⟩ := bind_ok ht
      obtain ⟨gc, h2, ht⟩ := bind_ok ht
      obtain ⟨gv, h3, ht⟩ := bind_ok ht
      obtain rfl := Except.ok.inj ht
      have i1 := sound hb c gc _ h2 h4
      cases x
      · have i2 := sound_pieces hb ps rest v h1 hv
        simp_all [eval, Val.bool?]
      · have i2 := sound hb t gv v h3 hv
        simp_all [eval, Val.bool?]

end

/-! ## Acceptance -/

section Accept

variable {bindings : String → Option Gem}

theorem allAccepted_nil {bound : String → Prop} : AllAccepted bound [] := .nil

theorem reduce_ok {mk : Gem → Gem → Gem} {gs : List Gem} (h : gs ≠ []) :
    ∃ g, reduce mk gs = .ok g := by
  cases gs with
  | nil => exact absurd rfl h
  | cons a l => exact ⟨_, rfl⟩

theorem translateAll_ne {ts : List Sym} {gs : List Gem} (h : translateAll bindings ts = .ok gs) :
    ts = [] ↔ gs = [] := by
  cases ts with
  | nil => obtain rfl := Except.ok.inj h; simp
  | cons t ts =>
    simp only [translateAll] at h
    obtain ⟨g, _, h⟩ := bind_ok h
    obtain ⟨gs', _, h⟩ := bind_ok h
    obtain rfl := Except.ok.inj h
    simp

theorem reduce_inv {mk : Gem → Gem → Gem} {gs : List Gem} {g : Gem} (h : reduce mk gs = .ok g) :
    gs ≠ [] := by
  rintro rfl
  simp [reduce] at h

theorem literalTrue_iff (c : Sym) :
    literalTrue c = true ↔ c = .bool true ∨ c = .npBool true := by
  cases c <;> simp [literalTrue]

mutual

theorem accepted_of_ok : ∀ (t : Sym) (g : Gem), translate bindings t = .ok g →
    Accepted (fun s => (bindings s).isSome) t
  | .add args, g, h => by
    simp only [translate] at h
    obtain ⟨gs, h1, h⟩ := bind_ok h
    exact .add _ (fun e => reduce_inv h ((translateAll_ne h1).1 e)) (accepted_all args gs h1)
  | .mul args, g, h => by
    simp only [translate] at h
    obtain ⟨gs, h1, h⟩ := bind_ok h
    exact .mul _ (fun e => reduce_inv h ((translateAll_ne h1).1 e)) (accepted_all args gs h1)
  | .or args, g, h => by
    simp only [translate] at h
    obtain ⟨gs, h1, h⟩ := bind_ok h
    exact .or _ (fun e => reduce_inv h ((translateAll_ne h1).1 e)) (accepted_all args gs h1)
  | .and args, g, h => by
    simp only [translate] at h
    obtain ⟨gs, h1, h⟩ := bind_ok h
    exact .and _ (fun e => reduce_inv h ((translateAll_ne h1).1 e)) (accepted_all args gs h1)
  | .pow b e, g, h => by
    simp only [translate] at h
    obtain ⟨gb, h1, h⟩ := bind_ok h
    obtain ⟨ge, h2, h⟩ := bind_ok h
    exact .pow _ _ (accepted_of_ok b gb h1) (accepted_of_ok e ge h2)
  | .bool b, g, h => .bool b
  | .npBool b, g, h => by simp [translate] at h
  | .int z, g, h => .int z
  | .float q, g, h => .float q
  | .symbol s, g, h => by
    simp only [translate] at h
    refine .symbol s ?_
    cases hs : bindings s with
    | none => simp [hs] at h
    | some g => rfl
  | .rational p q, g, h => .rational p q
  | .abs a, g, h => by
    simp only [translate] at h
    obtain ⟨ga, h1, h⟩ := bind_ok h
    exact .abs _ (accepted_of_ok a ga h1)
  | .not a, g, h => by
    simp only [translate] at h
    obtain ⟨ga, h1, h⟩ := bind_ok h
    exact .not _ (accepted_of_ok a ga h1)
  | .cmp op a b, g, h => by
    simp only [translate] at h
    obtain ⟨ga, h1, h⟩ := bind_ok h
    obtain ⟨gb, h2, h⟩ := bind_ok h
    exact .cmp _ _ _ (accepted_of_ok a ga h1) (accepted_of_ok b gb h2)
  | .piecewise ps, g, h => by
    simp only [translate] at h
    exact .piecewise _ (accepted_pieces ps g h)
  | .ite c a b, g, h => by
    simp only [translate] at h
    obtain ⟨gc, h0, h⟩ := bind_ok h
    obtain ⟨ga, h1, h⟩ := bind_ok h
    obtain ⟨gb, h2, h⟩ := bind_ok h
    exact .ite _ _ _ (accepted_of_ok c gc h0) (accepted_of_ok a ga h1) (accepted_of_ok b gb h2)
  | .expr _ _, g, h => by simp [translate] at h
  | .alien _, g, h => by simp [translate] at h

theorem accepted_all : ∀ (ts : List Sym) (gs : List Gem), translateAll bindings ts = .ok gs →
    AllAccepted (fun s => (bindings s).isSome) ts
  | [], _, _ => .nil
  | t :: ts, gs, h => by
    simp only [translateAll] at h
    obtain ⟨g, h1, h⟩ := bind_ok h
    obtain ⟨gs', h2, h⟩ := bind_ok h
    exact .cons _ _ (accepted_of_ok t g h1) (accepted_all ts gs' h2)

theorem accepted_pieces : ∀ (ps : List (Sym × Sym)) (g : Gem), translatePieces bindings ps = .ok g →
    AcceptedPieces (fun s => (bindings s).isSome) ps
  | [], _, _ => .nil
  | (v, c) :: ps, g, h => by
    simp only [translatePieces] at h
    split at h
    · next hl =>
      have hv := accepted_of_ok v g h
      rcases (literalTrue_iff c).1 hl with rfl | rfl
      · exact .default _ _ hv
      · exact .numpyDefault _ _ hv
    · next hl =>
      obtain ⟨rest, h1, h⟩ := bind_ok h
      obtain ⟨gc, h2, h⟩ := bind_ok h
      obtain ⟨gv, h3, h⟩ := bind_ok h
      exact .piece _ _ _ (fun e => hl ((literalTrue_iff c).2 (Or.inl e))) (accepted_of_ok c gc h2)
        (accepted_of_ok v gv h3) (accepted_pieces ps rest h1)

end

mutual

theorem ok_of_accepted : ∀ {t : Sym}, Accepted (fun s => (bindings s).isSome) t →
    ∃ g, translate bindings t = .ok g
  | _, .add args hne h => by
    obtain ⟨gs, h1⟩ := all_of_accepted h
    obtain ⟨g, h2⟩ := reduce_ok (mk := .sum) (fun e => hne ((translateAll_ne h1).2 e))
    exact ⟨g, by simp only [translate, h1]; exact h2⟩
  | _, .mul args hne h => by
    obtain ⟨gs, h1⟩ := all_of_accepted h
    obtain ⟨g, h2⟩ := reduce_ok (mk := .product) (fun e => hne ((translateAll_ne h1).2 e))
    exact ⟨g, by simp only [translate, h1]; exact h2⟩
  | _, .or args hne h => by
    obtain ⟨gs, h1⟩ := all_of_accepted h
    obtain ⟨g, h2⟩ := reduce_ok (mk := .logicalOr) (fun e => hne ((translateAll_ne h1).2 e))
    exact ⟨g, by simp only [translate, h1]; exact h2⟩
  | _, .and args hne h => by
    obtain ⟨gs, h1⟩ := all_of_accepted h
    obtain ⟨g, h2⟩ := reduce_ok (mk := .logicalAnd) (fun e => hne ((translateAll_ne h1).2 e))
    exact ⟨g, by simp only [translate, h1]; exact h2⟩
  | _, .pow b e h1 h2 => by
    obtain ⟨gb, e1⟩ := ok_of_accepted h1
    obtain ⟨ge, e2⟩ := ok_of_accepted h2
    exact ⟨_, by simp only [translate, e1, e2]; rfl⟩
  | _, .bool b => ⟨_, rfl⟩
  | _, .int z => ⟨_, rfl⟩
  | _, .float q => ⟨_, rfl⟩
  | _, .symbol s h => by
    obtain ⟨g, hg⟩ := Option.isSome_iff_exists.1 h
    exact ⟨g, by simp only [translate, hg]; rfl⟩
  | _, .rational p q => ⟨_, rfl⟩
  | _, .abs a h1 => by
    obtain ⟨ga, e1⟩ := ok_of_accepted h1
    exact ⟨_, by simp only [translate, e1]; rfl⟩
  | _, .not a h1 => by
    obtain ⟨ga, e1⟩ := ok_of_accepted h1
    exact ⟨_, by simp only [translate, e1]; rfl⟩
  | _, .cmp op a b h1 h2 => by
    obtain ⟨ga, e1⟩ := ok_of_accepted h1
    obtain ⟨gb, e2⟩ := ok_of_accepted h2
    exact ⟨_, by simp only [translate, e1, e2]; rfl⟩
  | _, .piecewise ps h => by
    obtain ⟨g, e⟩ := pieces_of_accepted h
    exact ⟨g, by simp only [translate]; exact e⟩
  | _, .ite c a b h0 h1 h2 => by
    obtain ⟨gc, e0⟩ := ok_of_accepted h0
    obtain ⟨ga, e1⟩ := ok_of_accepted h1
    obtain ⟨gb, e2⟩ := ok_of_accepted h2
    exact ⟨_, by simp only [translate, e0, e1, e2]; rfl⟩

theorem all_of_accepted : ∀ {ts : List Sym}, AllAccepted (fun s => (bindings s).isSome) ts →
    ∃ gs, translateAll bindings ts = .ok gs
  | _, .nil => ⟨_, rfl⟩
  | _, .cons t ts h1 h2 => by
    obtain ⟨g, e1⟩ := ok_of_accepted h1
    obtain ⟨gs, e2⟩ := all_of_accepted h2
    exact ⟨_, by simp only [translateAll, e1, e2]; rfl⟩

theorem pieces_of_accepted : ∀ {ps : List (Sym × Sym)},
    AcceptedPieces (fun s => (bindings s).isSome) ps → ∃ g, translatePieces bindings ps = .ok g
  | _, .nil => ⟨_, rfl⟩
  | _, .default v ps h => by
    obtain ⟨g, e⟩ := ok_of_accepted h
    exact ⟨g, by rw [translatePieces, if_pos (show literalTrue (.bool true) = true from rfl), e]⟩
  | _, .numpyDefault v ps h => by
    obtain ⟨g, e⟩ := ok_of_accepted h
    exact ⟨g, by rw [translatePieces, if_pos (show literalTrue (.npBool true) = true from rfl), e]⟩
  | _, .piece v c ps hc h1 h2 h3 => by
    obtain ⟨gc, e1⟩ := ok_of_accepted h1
    obtain ⟨gv, e2⟩ := ok_of_accepted h2
    obtain ⟨gr, e3⟩ := pieces_of_accepted h3
    have hl : ¬ literalTrue c = true := by
      intro hl
      rcases (literalTrue_iff c).1 hl with rfl | rfl
      · exact hc rfl
      · cases h1
    exact ⟨_, by rw [translatePieces, if_neg hl, e3, e1, e2]; rfl⟩

end

end Accept

/-! ## The memoizer -/

section Memo

variable {same : Sym → Sym → Bool} {bindings : String → Option Gem}

/-- Everything in the cache is the translation of its key. -/
def Valid (bindings : String → Option Gem) (c : Cache) : Prop :=
  ∀ p ∈ c, translate bindings p.1 = .ok p.2

/-- From a valid cache the computation gives this result and leaves a valid cache. -/
def Agrees {α : Type} (bindings : String → Option Gem) (m : M α) (x : Except Err α) : Prop :=
  ∀ c, Valid bindings c → (m.run.run c).1 = x ∧ Valid bindings (m.run.run c).2

theorem agrees_pure {α : Type} (a : α) : Agrees bindings (pure a : M α) (.ok a) :=
  fun _ hc => ⟨rfl, hc⟩

theorem agrees_throw {α : Type} (e : Err) : Agrees bindings (throw e : M α) (.error e) :=
  fun _ hc => ⟨rfl, hc⟩

theorem agrees_lift {α : Type} (x : Except Err α) : Agrees bindings (ExceptT.mk (pure x) : M α) x :=
  fun _ hc => ⟨rfl, hc⟩

theorem Agrees.bind {α β : Type} {m : M α} {x : Except Err α} {f : α → M β} {g : α → Except Err β}
    (hm : Agrees bindings m x) (hf : ∀ a, Agrees bindings (f a) (g a)) :
    Agrees bindings (m >>= f) (x >>= g) := by
  intro c hc
  obtain ⟨h1, h2⟩ := hm c hc
  have hrun : (m >>= f).run.run c = (match m.run.run c with
      | (.ok a, c') => (f a).run.run c'
      | (.error e, c') => (.error e, c')) := by
    simp only [ExceptT.run_bind, StateT.run_bind]
    rcases h : m.run.run c with ⟨_ | _, c'⟩ <;> rfl
  rw [hrun]
  rcases h : m.run.run c with ⟨r, c'⟩
  rw [h] at h1 h2
  subst h1
  cases r with
  | error e => exact ⟨rfl, h2⟩
  | ok a => exact hf a c' h2

theorem agrees_cached (hs : ∀ a b, same a b = true → a = b) {t : Sym} {m : M Gem}
    (hm : Agrees bindings m (translate bindings t)) :
    Agrees bindings (cached same t m) (translate bindings t) := by
  intro c hc
  have hrun : (cached same t m).run.run c = (match c.find? (fun p => same p.1 t) with
      | some p => (.ok p.2, c)
      | none => match m.run.run c with
        | (.ok g, c') => (.ok g, (t, g) :: c')
        | (.error e, c') => (.error e, c')) := by
    unfold cached
    simp only [ExceptT.run_bind, StateT.run_bind]
    change (match c.find? (fun p : Sym × Gem => same p.1 t) with
      | some p => (return p.2 : M Gem)
      | none => do
        let g ← m
        modify fun c => (t, g) :: c
        return g).run.run c = _
    cases c.find? (fun p => same p.1 t) with
    | some p => rfl
    | none =>
      simp only [ExceptT.run_bind, StateT.run_bind]
      rcases h : m.run.run c with ⟨_ | _, c'⟩ <;> rfl
  rw [hrun]
  cases hfind : c.find? (fun p => same p.1 t) with
  | some p =>
    have hp := hc p (List.mem_of_find?_eq_some hfind)
    have : p.1 = t := hs _ _ (by simpa using List.find?_some hfind)
    exact ⟨by rw [← this, hp], hc⟩
  | none =>
    obtain ⟨h1, h2⟩ := hm c hc
    rcases h : m.run.run c with ⟨r, c'⟩
    rw [h] at h1 h2
    simp only at h1 h2
    cases r with
    | error e => exact ⟨h1, h2⟩
    | ok g =>
      refine ⟨h1, ?_⟩
      intro p hp
      rcases List.mem_cons.1 hp with rfl | hp
      · exact h1.symm
      · exact h2 p hp

mutual

theorem memo_agrees (hs : ∀ a b, same a b = true → a = b) :
    ∀ t : Sym, Agrees bindings (memo same bindings t) (translate bindings t)
  | .add args => by
    unfold memo
    refine agrees_cached hs ?_
    simp only [translate]
    exact (memoAll_agrees hs args).bind fun gs => agrees_lift _
  | .mul args => by
    unfold memo
    refine agrees_cached hs ?_
    simp only [translate]
    exact (memoAll_agrees hs args).bind fun gs => agrees_lift _
  | .or args => by
    unfold memo
    refine agrees_cached hs ?_
    simp only [translate]
    exact (memoAll_agrees hs args).bind fun gs => agrees_lift _
  | .and args => by
    unfold memo
    refine agrees_cached hs ?_
    simp only [translate]
    exact (memoAll_agrees hs args).bind fun gs => agrees_lift _
  | .pow b e => by
    unfold memo
    refine agrees_cached hs ?_
    simp only [translate]
    exact (memo_agrees hs b).bind fun _ => (memo_agrees hs e).bind fun _ => agrees_pure _
  | .bool b => agrees_cached hs (agrees_pure _)
  | .npBool b => agrees_cached hs (agrees_throw _)
  | .int z => agrees_cached hs (agrees_pure _)
  | .float q => agrees_cached hs (agrees_pure _)
  | .symbol s => by
    unfold memo
    refine agrees_cached hs ?_
    simp only [translate]
    cases bindings s with
    | some g => exact agrees_pure _
    | none => exact agrees_throw _
  | .rational p q => by
    unfold memo
    refine agrees_cached hs ?_
    exact Agrees.bind (x := .ok (.int p)) (g := fun a => .ok (Gem.division a (.int q)))
      (agrees_cached (t := .int p) hs (agrees_pure _)) fun a =>
      Agrees.bind (x := .ok (.int q)) (g := fun b => .ok (Gem.division a b))
        (agrees_cached (t := .int q) hs (agrees_pure _)) fun b => agrees_pure _
  | .abs a => by
    unfold memo
    refine agrees_cached hs ?_
    simp only [translate]
    exact (memo_agrees hs a).bind fun _ => agrees_pure _
  | .not a => by
    unfold memo
    refine agrees_cached hs ?_
    simp only [translate]
    exact (memo_agrees hs a).bind fun _ => agrees_pure _
  | .cmp op a b => by
    unfold memo
    refine agrees_cached hs ?_
    simp only [translate]
    exact (memo_agrees hs a).bind fun _ => (memo_agrees hs b).bind fun _ => agrees_pure _
  | .piecewise ps => by
    unfold memo
    refine agrees_cached hs ?_
    simp only [translate]
    exact memoPieces_agrees hs ps
  | .ite c a b => by
    unfold memo
    refine agrees_cached hs ?_
    simp only [translate]
    exact (memo_agrees hs c).bind fun _ => (memo_agrees hs a).bind fun _ =>
      (memo_agrees hs b).bind fun _ => agrees_pure _
  | .expr _ _ => agrees_cached hs (agrees_throw _)
  | .alien _ => agrees_cached hs (agrees_throw _)

theorem memoAll_agrees (hs : ∀ a b, same a b = true → a = b) :
    ∀ ts : List Sym, Agrees bindings (memoAll same bindings ts) (translateAll bindings ts)
  | [] => agrees_pure _
  | t :: ts => by
    unfold memoAll
    simp only [translateAll]
    exact (memo_agrees hs t).bind fun _ => (memoAll_agrees hs ts).bind fun _ => agrees_pure _

theorem memoPieces_agrees (hs : ∀ a b, same a b = true → a = b) :
    ∀ ps : List (Sym × Sym),
      Agrees bindings (memoPieces same bindings ps) (translatePieces bindings ps)
  | [] => agrees_pure _
  | (v, c) :: ps => by
    unfold memoPieces
    simp only [translatePieces]
    split
    · exact memo_agrees hs v
    · exact (memoPieces_agrees hs ps).bind fun _ => (memo_agrees hs c).bind fun _ =>
        (memo_agrees hs v).bind fun _ => agrees_pure _

end

theorem runAll_valid (hs : ∀ a b, same a b = true → a = b) : ∀ (ts : List Sym) (c : Cache),
    Valid bindings c → Valid bindings (runAll same bindings c ts)
  | [], _, hc => hc
  | t :: ts, c, hc => runAll_valid hs ts _ (memo_agrees hs t c hc).2

end Memo

end FInAT.Sympy2gem
