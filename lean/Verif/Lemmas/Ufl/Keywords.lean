import Verif.Lemmas.Ufl.Reconstruct
import Verif.Spec.Keywords

/-!
# Lemmas on `reconstruct` with keyword arguments
-/

namespace FInAT.Ufl

open UElem

/-- A registered family asked for again, on the same cell and in another degree. -/
theorem canonical_again {f f' : String} {c : Option UCell} {o o' : Order} {k : Option Int}
    {d d' : Desc} (h : canonicalElementDescription f c o k = .ok d) (hf : f' = d.family)
    (h' : canonicalElementDescription f' c o' none = .ok d') :
    d'.family = d.family ∧ d'.order = o' ∧ d'.shape = d.shape ∧ d'.sobolev = d.sobolev ∧
      d'.mapping = d.mapping ∧ d'.embedded = embeddedOf (tdimOf c) d.family o' := by
  subst hf
  obtain ⟨e, hreg, hef, hs, hm, -, -, hshape, hcube⟩ := Props.canonical_entry h
  obtain ⟨hget, ha⟩ := registered_facts e hreg
  obtain ⟨s, e', hres, hget', hcube', -, -, hshape', -, ho', hs', hm', hemb⟩ := canonical_ok h'
  rw [hef] at hget ha
  have hs1 : s = (d.family, o') := by
    have : catchFeec (tdimOf c) none (d.family, o') = .ok (d.family, o') := by
      unfold catchFeec; rfl
    rw [this] at hres
    have h2 := resolve_of_not_alias (tdim := tdimOf c) (k := none) (s := (d.family, o')) ha
    simp only [bind, Except.bind] at hres
    rw [h2] at hres
    cases hres; rfl
  subst hs1
  simp only at hget' hcube' ho' hemb
  rw [hget] at hget'
  cases hget'
  have hfam : d'.family = d.family := by
    rcases cubeFamily_ok hcube' with h1 | ⟨hc, h1⟩
    · rw [h1, hef]
    · exfalso
      unfold cubeFamily at hcube
      rw [if_pos hc] at hcube
      rcases h1 with ⟨h1, -⟩ | ⟨h1, -⟩ | ⟨h1, -⟩
      · rw [h1] at hcube; simp at hcube
      · rw [h1] at hcube
        simp only [String.reduceEq, if_false, if_true] at hcube
        cases hd : d.order <;> rw [hd] at hcube <;> simp at hcube
      · rw [h1] at hcube
        simp only [String.reduceEq, if_false, if_true] at hcube
        cases hd : d.order <;> rw [hd] at hcube <;> simp at hcube
  refine ⟨hfam, ho', ?_, by rw [hs', hs], by rw [hm', hm], by rw [hemb, hfam]⟩
  rw [hshape] at hshape'
  exact (Except.ok.inj hshape').symm

/-- What `FiniteElement` returns when it returns a simple element. -/
theorem newFe_simple {f : String} {c : Option UCell} {o : Order} {k : Option Int}
    {q v : Option String} {b : Base} {o' : Order} {so : Sobolev} {m : String}
    {v' : Option String} {em : Order}
    (h : newFe f o k q v c = .ok (.fe b o' so m v' em)) :
    ∃ d, canonicalElementDescription f c o k = .ok d ∧ mkFe f c o k q v = .ok (.fe b o' so m v' em) ∧
      (∀ cs, c = some (.tensor cs) → d.family ∉ expanded) := by
  rcases c with _ | (n | cs)
  · rw [newFe] at h
    obtain ⟨d, hd, -⟩ := mkFe_ok h
    exact ⟨d, hd, h, by simp⟩
  · rw [newFe, newFeOn] at h
    obtain ⟨d, hd, -⟩ := mkFe_ok h
    exact ⟨d, hd, h, by simp⟩
  · rw [newFe] at h
    cases hd : canonicalElementDescription f (some (.tensor cs)) o k with
    | error x => rw [newFeOn, hd] at h; cases h
    | ok d =>
      by_cases hf : d.family ∈ expanded
      · exfalso
        have key : ∀ {subs e'}, mkProduct subs (some (.tensor cs)) = .ok e' →
            e' ≠ .fe b o' so m v' em := by
          intro subs e' he
          obtain ⟨c', ss, rfl, -⟩ := mkProduct_ok he
          simp
        have key2 : ∀ {n subs e'}, mkEnriched n subs = .ok e' →
            e' ≠ .fe b o' so m v' em := by
          intro n subs e' he
          obtain ⟨e0, es, b, -, rfl, -⟩ := mkEnriched_ok he
          simp
        have keyRT : ∀ {w o e'}, expandRT w cs o v = .ok e' →
            e' ≠ .fe b o' so m v' em := by
          intro w o e' h
          unfold expandRT at h
          obtain ⟨_, -, h⟩ := bind_ok h
          obtain ⟨c, hc, h⟩ := bind_ok h
          obtain ⟨low, -, h⟩ := bind_ok h
          obtain ⟨d, hd, h⟩ := bind_ok h
          obtain ⟨cd, hcd, h⟩ := bind_ok h
          obtain ⟨dc, hdc, h⟩ := bind_ok h
          obtain ⟨w1, hw1, h⟩ := bind_ok h
          obtain ⟨w2, hw2, h⟩ := bind_ok h
          exact key2 h
        have keyNC : ∀ {w f1 f2 l1 l2 o e'}, expandNC w f1 f2 l1 l2 cs o v = .ok e' →
            e' ≠ .fe b o' so m v' em := by
          intro w f1 f2 l1 l2 o e' h
          unfold expandNC at h
          obtain ⟨_, -, h⟩ := bind_ok h
          obtain ⟨low, -, h⟩ := bind_ok h
          obtain ⟨q1, hq1, h⟩ := bind_ok h
          obtain ⟨q2, hq2, h⟩ := bind_ok h
          obtain ⟨d, hd, h⟩ := bind_ok h
          obtain ⟨c, hc, h⟩ := bind_ok h
          obtain ⟨p1, hp1, h⟩ := bind_ok h
          obtain ⟨p2, hp2, h⟩ := bind_ok h
          obtain ⟨w1, hw1, h⟩ := bind_ok h
          obtain ⟨w2, hw2, h⟩ := bind_ok h
          exact key2 h
        rw [newFeOn, hd] at h
        simp only at h
        split at h
        · exact keyRT h rfl
        · split at h
          · exact keyRT h rfl
          · split at h
            · exact keyNC h rfl
            · split at h
              · exact keyNC h rfl
              · split at h
                · split at h
                  · cases h
                  · exact key h rfl
                · split at h
                  · split at h
                    · cases h
                    · exact key h rfl
                  · split at h
                    · split at h
                      · cases h
                      · exact key h rfl
                    · simp [expanded] at hf
                      tauto
      · rw [newFeOn_other hd hf] at h
        exact ⟨d, rfl, h, fun _ _ => hf⟩

/-- A simple element asked for again with another degree, scheme and variant. -/
theorem fe_again {b : Base} {o : Order} {so : Sobolev} {m : String} {v : Option String}
    {em : Order} (hg : Fixed (.fe b o so m v em)) (o' : Order) (q' v' : Option String)
    {e' : UElem} (h : newFe b.family o' none q' v' b.cell = .ok e') :
    e' = .fe ⟨b.family, b.cell, o'.toDeg, q', b.shape⟩ o' so m v'
      (embeddedOf (tdimOf b.cell) b.family o') := by
  unfold Fixed at hg
  rw [reconstruct] at hg
  obtain ⟨d, hd, hmk, hexp⟩ := newFe_simple hg
  obtain ⟨d0, hd0, he0⟩ := mkFe_ok hmk
  rw [hd] at hd0
  cases hd0
  injection he0 with hb ho hso hm hv hem
  have hfam : b.family = d.family := by rw [hb]
  have hsh : b.shape = d.shape := by rw [hb]
  have main : mkFe b.family b.cell o' none q' v' = .ok e' →
      e' = .fe ⟨b.family, b.cell, o'.toDeg, q', b.shape⟩ o' so m v'
        (embeddedOf (tdimOf b.cell) b.family o') := by
    intro h
    obtain ⟨d', hd', rfl⟩ := mkFe_ok h
    obtain ⟨h1, h2, h3, h4, h5, h6⟩ := canonical_again hd hfam hd'
    rw [h1, h2, h3, h4, h5, h6, ← hfam, ← hsh, ← hso, ← hm]
  generalize hc : b.cell = c at *
  rcases c with _ | (n | cs)
  · rw [newFe] at h; exact main h
  · rw [newFe, newFeOn] at h; exact main h
  · rw [newFe] at h
    cases hd' : canonicalElementDescription b.family (some (.tensor cs)) o' none with
    | error x => rw [newFeOn, hd'] at h; cases h
    | ok d' =>
      have h1 := (canonical_again hd hfam hd').1
      rw [newFeOn_other hd' (by rw [h1]; exact hexp cs rfl)] at h
      exact main h

/-- Only the variant and scheme changed: the element is accepted again. -/
theorem fe_again_ok {b : Base} {o : Order} {so : Sobolev} {m : String} {v : Option String}
    {em : Order} (hg : Fixed (.fe b o so m v em)) (q' v' : Option String) :
    ∃ e', newFe b.family o none q' v' b.cell = .ok e' := by
  unfold Fixed at hg
  rw [reconstruct] at hg
  obtain ⟨d, hd, hmk, hexp⟩ := newFe_simple hg
  have main : ∃ e', mkFe b.family b.cell o none q' v' = .ok e' := by
    unfold mkFe
    rw [hd]
    exact ⟨_, rfl⟩
  generalize hc : b.cell = c at *
  rcases c with _ | (n | cs)
  · rw [newFe]; exact main
  · rw [newFe, newFeOn]; exact main
  · rw [newFe, newFeOn_other hd (hexp cs rfl)]; exact main

/-! ## The tree -/

theorem reconstructsWith_mem {k : Keywords} : ∀ {es es' : List UElem},
    reconstructsWith k es = .ok es' →
    List.Forall₂ (fun e e' => reconstructWith k e = .ok e') es es'
  | [], es', h => by rw [reconstructsWith] at h; cases h; exact .nil
  | e :: es, es', h => by
    rw [reconstructsWith] at h
    obtain ⟨a, ha, h⟩ := bind_ok h
    obtain ⟨as, has, h⟩ := bind_ok h
    cases h
    exact .cons ha (reconstructsWith_mem has)

theorem reconstructsWith_of {k : Keywords} {es es' : List UElem}
    (h : List.Forall₂ (fun e e' => reconstructWith k e = .ok e') es es') :
    reconstructsWith k es = .ok es' := by
  induction h with
  | nil => rw [reconstructsWith]
  | cons h _ ih => rw [reconstructsWith, h, ih]; rfl

theorem forall₂_right {α β : Type} {R : α → β → Prop} {P : β → Prop} {l : List α} {l' : List β}
    (h : List.Forall₂ R l l') (hp : ∀ a ∈ l, ∀ b, R a b → P b) : ∀ b ∈ l', P b := by
  induction h with
  | nil => simp
  | cons h _ ih =>
    intro b hb
    rcases List.mem_cons.1 hb with rfl | hb
    · exact hp _ List.mem_cons_self _ h
    · exact ih (fun a ha => hp a (List.mem_cons_of_mem _ ha)) b hb

theorem forall₂_imp {α β : Type} {R S : α → β → Prop} {l : List α} {l' : List β}
    (h : List.Forall₂ R l l') (hp : ∀ a ∈ l, ∀ b, R a b → S a b) : List.Forall₂ S l l' := by
  induction h with
  | nil => exact .nil
  | cons h _ ih =>
    exact .cons (hp _ List.mem_cons_self _ h) (ih fun a ha => hp a (List.mem_cons_of_mem _ ha))

mutual
/-- Whatever the keywords, the result is built by the constructors. -/
theorem reconstructWith_built (k : Keywords) : ∀ (e : UElem) {e' : UElem},
    reconstructWith k e = .ok e' → Built e'
  | .fe b o so m v em, e', h => by
    rw [reconstructWith] at h
    split at h
    · cases h
    · exact .fe h
  | .mixed b subs, e', h => by
    rw [reconstructWith] at h
    obtain ⟨es, hes, h⟩ := bind_ok h
    exact .mixed (reconstructsWith_built k subs hes) h
  | .vector b s dim v, e', h => by
    rw [reconstructWith] at h
    obtain ⟨s', hs, h⟩ := bind_ok h
    exact .vector (reconstructWith_built k s hs) h
  | .tensor b s sh sy n c m v, e', h => by
    rw [reconstructWith] at h
    obtain ⟨s', hs, h⟩ := bind_ok h
    exact .tensor (reconstructWith_built k s hs) h
  | .product b subs, e', h => by
    rw [reconstructWith] at h
    obtain ⟨es, hes, h⟩ := bind_ok h
    exact .product (reconstructsWith_built _ subs hes) h
  | .enriched b n subs, e', h => by
    rw [reconstructWith] at h
    obtain ⟨es, hes, h⟩ := bind_ok h
    exact .enriched (reconstructsWith_built k subs hes) h
  | .hdiv b s, e', h => by
    rw [reconstructWith] at h
    obtain ⟨s', hs, h⟩ := bind_ok h
    exact .hdiv (reconstructWith_built k s hs) h
  | .hcurl b s, e', h => by
    rw [reconstructWith] at h
    obtain ⟨s', hs, h⟩ := bind_ok h
    exact .hcurl (reconstructWith_built k s hs) h
  | .withMapping s m, e', h => by
    rw [reconstructWith] at h
    obtain ⟨s', hs, h⟩ := bind_ok h
    exact .withMapping (reconstructWith_built _ s hs) h
  | .restricted b s d, e', h => by
    rw [reconstructWith] at h
    obtain ⟨s', hs, h⟩ := bind_ok h
    exact .restricted (reconstructWith_built k s hs) h
  | .broken b s, e', h => by
    rw [reconstructWith] at h
    obtain ⟨s', hs, h⟩ := bind_ok h
    exact .broken (reconstructWith_built k s hs) h
theorem reconstructsWith_built (k : Keywords) : ∀ (es : List UElem) {es' : List UElem},
    reconstructsWith k es = .ok es' → ∀ s ∈ es', Built s
  | [], es', h => by rw [reconstructsWith] at h; cases h; simp
  | e :: es, es', h => by
    rw [reconstructsWith] at h
    obtain ⟨a, ha, h⟩ := bind_ok h
    obtain ⟨as, has, h⟩ := bind_ok h
    cases h
    intro s hs
    rcases List.mem_cons.1 hs with rfl | hs
    · exact reconstructWith_built k e ha
    · exact reconstructsWith_built k es has s hs
end

/-- The cell of a product that its own `reconstruct()` returns. -/
theorem product_cell {b : Base} {subs : List UElem} (h : Fixed (.product b subs)) :
    ∃ c, b.cell = some c := by
  unfold Fixed at h
  rw [reconstruct] at h
  obtain ⟨es, hes, h⟩ := bind_ok h
  obtain ⟨c', ss, he, -⟩ := mkProduct_ok h
  injection he with hb hs
  exact ⟨c', by rw [hb]⟩

theorem orElse_eq (a b : Order) : a.orElse b = if a = .none then b else a := by
  cases a <;> simp [Order.orElse]

theorem or_eq (a b : Option String) : a.or b = if a = none then b else a := by
  cases a <;> simp

/-- The simple parts of the result are the replaced ones. -/
theorem reconstructWith_alike {d : Order} {q v : Option String} {e : UElem} (hg : Good e) :
    ∀ {e'}, reconstructWith (replacing d q v) e = .ok e' → Alike (Replaced d q v) e e' := by
  induction hg with
  | @intro e hf hs ih =>
    intro e' h
    have list : ∀ {subs es : List UElem}, (∀ s ∈ subs, s ∈ children e) →
        reconstructsWith (replacing d q v) subs = .ok es →
        List.Forall₂ (Alike (Replaced d q v)) subs es := by
      intro subs es hsub hes
      exact forall₂_imp (reconstructsWith_mem hes) fun a ha b hb => ih a (hsub a ha) hb
    cases e with
    | fe b o so m w em =>
      rw [reconstructWith] at h
      simp only [replacing, Option.isSome_none, Bool.false_eq_true, if_false,
        Option.getD_none, Option.join_none, Option.none_or] at h
      have he := fe_again hf _ _ _ h
      rw [he]
      exact .fe ⟨rfl, rfl, rfl, rfl, rfl, orElse_eq d o, or_eq q b.quadScheme, or_eq v w⟩
    | mixed b subs =>
      rw [reconstructWith] at h
      obtain ⟨es, hes, h⟩ := bind_ok h
      obtain ⟨b', -, rfl⟩ := mkMixed_ok h
      exact .mixed (list (fun s hs => hs) hes)
    | vector b s dim w =>
      rw [reconstructWith] at h
      obtain ⟨s', hs', h⟩ := bind_ok h
      obtain ⟨n, sh, rfl, -, -, hn⟩ := mkVectorOf_ok h
      rw [hn dim rfl]
      exact .vector (ih s (by simp [children]) hs')
    | tensor b s sh sy nu c m w =>
      rw [reconstructWith] at h
      obtain ⟨s', hs', h⟩ := bind_ok h
      obtain ⟨b', shape', d', number, count, m', rfl, -, -, -, -, -, -, h1, h2, -⟩ :=
        mkTensorOf_ok h
      rw [h1 sh rfl, h2 sy rfl]
      exact .tensor (ih s (by simp [children]) hs')
    | product b subs =>
      obtain ⟨c, hc⟩ := product_cell hf
      rw [reconstructWith] at h
      obtain ⟨es, hes, h⟩ := bind_ok h
      obtain ⟨c', ss, rfl, -, -, -, -, h1, -⟩ := mkProduct_ok h
      refine .product (list (fun s hs => hs) hes) ?_
      show some c' = b.cell
      rw [hc, h1 c (by simp [replacing, hc])]
    | enriched b n subs =>
      rw [reconstructWith] at h
      obtain ⟨es, hes, h⟩ := bind_ok h
      obtain ⟨e0, es', b', -, rfl, -⟩ := mkEnriched_ok h
      exact .enriched (list (fun s hs => hs) hes)
    | hdiv b s =>
      rw [reconstructWith] at h
      obtain ⟨s', hs', h⟩ := bind_ok h
      obtain ⟨b', -, rfl⟩ := mkHDiv_ok h
      exact .hdiv (ih s (by simp [children]) hs')
    | hcurl b s =>
      rw [reconstructWith] at h
      obtain ⟨s', hs', h⟩ := bind_ok h
      obtain ⟨b', -, rfl⟩ := mkHCurl_ok h
      exact .hcurl (ih s (by simp [children]) hs')
    | withMapping s m =>
      rw [reconstructWith] at h
      obtain ⟨s', hs', h⟩ := bind_ok h
      obtain ⟨-, rfl⟩ := mkWithMapping_ok h
      exact .withMapping (ih s (by simp [children]) hs')
    | restricted b s dom =>
      rw [reconstructWith] at h
      obtain ⟨s', hs', h⟩ := bind_ok h
      obtain ⟨-, sh, -, rfl⟩ := mkRestricted_ok h
      exact .restricted (ih s (by simp [children]) hs')
    | broken b s =>
      rw [reconstructWith] at h
      obtain ⟨s', hs', h⟩ := bind_ok h
      obtain ⟨sh, -, rfl⟩ := mkBroken_ok h
      exact .broken (ih s (by simp [children]) hs')

/-- The keywords of two calls, one after the other. -/
theorem reconstructWith_twice {d d' : Order} {q q' v v' : Option String} {e : UElem}
    (hg : Good e) :
    ∀ {e1}, reconstructWith (replacing d q v) e = .ok e1 →
      reconstructWith (replacing d' q' v') e1 =
        reconstructWith (replacing (d'.orElse d) (q'.or q) (v'.or v)) e := by
  induction hg with
  | @intro e hf hs ih =>
    intro e1 h
    have list : ∀ {subs es : List UElem}, (∀ s ∈ subs, s ∈ children e) →
        reconstructsWith (replacing d q v) subs = .ok es →
        reconstructsWith (replacing d' q' v') es =
          reconstructsWith (replacing (d'.orElse d) (q'.or q) (v'.or v)) subs := by
      intro subs
      induction subs with
      | nil => intro es _ h; rw [reconstructsWith] at h; cases h; rw [reconstructsWith, reconstructsWith]
      | cons s subs ihs =>
        intro es hsub h
        rw [reconstructsWith] at h
        obtain ⟨a, ha, h⟩ := bind_ok h
        obtain ⟨as, has, h⟩ := bind_ok h
        cases h
        rw [reconstructsWith, reconstructsWith, ih s (hsub s List.mem_cons_self) ha,
          ihs (fun s hs => hsub s (List.mem_cons_of_mem _ hs)) has]
    cases e with
    | fe b o so m w em =>
      rw [reconstructWith] at h
      simp only [replacing, Option.isSome_none, Bool.false_eq_true, if_false,
        Option.getD_none, Option.join_none, Option.none_or] at h
      have he := fe_again hf _ _ _ h
      rw [he, reconstructWith, reconstructWith]
      have : (d'.orElse d).orElse o = d'.orElse (d.orElse o) := by
        cases d' <;> rfl
      simp only [replacing, Option.isSome_none, Bool.false_eq_true, if_false,
        Option.getD_none, Option.join_none, Option.none_or, this, Option.or_assoc]
    | mixed b subs =>
      rw [reconstructWith] at h
      obtain ⟨es, hes, h⟩ := bind_ok h
      obtain ⟨b', -, rfl⟩ := mkMixed_ok h
      rw [reconstructWith, reconstructWith, list (subs := subs) (fun s hs => hs) hes]
    | vector b s dim w =>
      rw [reconstructWith] at h
      obtain ⟨s', hs', h⟩ := bind_ok h
      obtain ⟨n, sh, rfl, -, -, hn⟩ := mkVectorOf_ok h
      rw [hn dim rfl, reconstructWith, reconstructWith, ih s (by simp [children]) hs']
    | tensor b s sh sy nu c m w =>
      rw [reconstructWith] at h
      obtain ⟨s', hs', h⟩ := bind_ok h
      obtain ⟨b', shape', d', number, count, m', rfl, -, -, -, -, -, -, h1, h2, -⟩ :=
        mkTensorOf_ok h
      rw [h1 sh rfl, h2 sy rfl, reconstructWith, reconstructWith,
        ih s (by simp [children]) hs']
    | product b subs =>
      obtain ⟨c, hc⟩ := product_cell hf
      rw [reconstructWith] at h
      obtain ⟨es, hes, h⟩ := bind_ok h
      obtain ⟨c', ss, rfl, -, -, -, -, h1, -⟩ := mkProduct_ok h
      rw [reconstructWith, reconstructWith]
      show (do mkProduct (← reconstructsWith (replacing d' q' v') es) (some c')) =
        (do mkProduct (← reconstructsWith (replacing (d'.orElse d) (q'.or q) (v'.or v)) subs)
              b.cell)
      rw [list (subs := subs) (fun s hs => hs) hes, hc, h1 c (by simp [replacing, hc])]
    | enriched b n subs =>
      rw [reconstructWith] at h
      obtain ⟨es, hes, h⟩ := bind_ok h
      obtain ⟨e0, es', b', -, rfl, -⟩ := mkEnriched_ok h
      rw [reconstructWith, reconstructWith, list (subs := subs) (fun s hs => hs) hes]
    | hdiv b s =>
      rw [reconstructWith] at h
      obtain ⟨s', hs', h⟩ := bind_ok h
      obtain ⟨b', -, rfl⟩ := mkHDiv_ok h
      rw [reconstructWith, reconstructWith, ih s (by simp [children]) hs']
    | hcurl b s =>
      rw [reconstructWith] at h
      obtain ⟨s', hs', h⟩ := bind_ok h
      obtain ⟨b', -, rfl⟩ := mkHCurl_ok h
      rw [reconstructWith, reconstructWith, ih s (by simp [children]) hs']
    | withMapping s m =>
      rw [reconstructWith] at h
      obtain ⟨s', hs', h⟩ := bind_ok h
      obtain ⟨-, rfl⟩ := mkWithMapping_ok h
      rw [reconstructWith, reconstructWith]
      show (do mkWithMapping (← reconstructWith (replacing d' q' v') s') _) =
        (do mkWithMapping
              (← reconstructWith (replacing (d'.orElse d) (q'.or q) (v'.or v)) s) m)
      rw [ih s (by simp [children]) hs']
      rfl
    | restricted b s dom =>
      rw [reconstructWith] at h
      obtain ⟨s', hs', h⟩ := bind_ok h
      obtain ⟨-, sh, -, rfl⟩ := mkRestricted_ok h
      rw [reconstructWith, reconstructWith, ih s (by simp [children]) hs']
    | broken b s =>
      rw [reconstructWith] at h
      obtain ⟨s', hs', h⟩ := bind_ok h
      obtain ⟨sh, -, rfl⟩ := mkBroken_ok h
      rw [reconstructWith, reconstructWith, ih s (by simp [children]) hs']

/-! ## Without keywords -/

mutual
theorem reconstructWith_nothing : ∀ e : UElem, reconstructWith {} e = reconstruct e
  | .fe b o so m v em => by rw [reconstructWith, reconstruct]; simp [Order.orElse]
  | .mixed b subs => by rw [reconstructWith, reconstruct, reconstructsWith_nothing subs]
  | .vector b s dim v => by rw [reconstructWith, reconstruct, reconstructWith_nothing s]
  | .tensor b s sh sy n c m v => by
    rw [reconstructWith, reconstruct, reconstructWith_nothing s]
  | .product b subs => by
    rw [reconstructWith, reconstruct, reconstructsWith_nothing subs]; rfl
  | .enriched b n subs => by rw [reconstructWith, reconstruct, reconstructsWith_nothing subs]
  | .hdiv b s => by rw [reconstructWith, reconstruct, reconstructWith_nothing s]
  | .hcurl b s => by rw [reconstructWith, reconstruct, reconstructWith_nothing s]
  | .withMapping s m => by
    rw [reconstructWith, reconstruct, reconstructWith_nothing s]; rfl
  | .restricted b s d => by rw [reconstructWith, reconstruct, reconstructWith_nothing s]
  | .broken b s => by rw [reconstructWith, reconstruct, reconstructWith_nothing s]
theorem reconstructsWith_nothing : ∀ es : List UElem,
    reconstructsWith {} es = reconstructs es
  | [] => by rw [reconstructsWith, reconstructs]
  | e :: es => by
    rw [reconstructsWith, reconstructs, reconstructWith_nothing e, reconstructsWith_nothing es]
end

/-! ## Other variants are accepted -/

/-- The data the constructors look at are the same. -/
def SameData (a b : UElem) : Prop :=
  a.cell = b.cell ∧ a.degree = b.degree ∧ a.quadScheme = b.quadScheme ∧ a.shape = b.shape

theorem SameData.map_cell {es es' : List UElem} (h : List.Forall₂ SameData es es') :
    es.map UElem.cell = es'.map UElem.cell := by
  induction h with
  | nil => rfl
  | cons h _ ih => rw [List.map_cons, List.map_cons, h.1, ih]

theorem SameData.map_degree {es es' : List UElem} (h : List.Forall₂ SameData es es') :
    es.map UElem.degree = es'.map UElem.degree := by
  induction h with
  | nil => rfl
  | cons h _ ih => rw [List.map_cons, List.map_cons, h.2.1, ih]

theorem SameData.map_quad {es es' : List UElem} (h : List.Forall₂ SameData es es') :
    es.map UElem.quadScheme = es'.map UElem.quadScheme := by
  induction h with
  | nil => rfl
  | cons h _ ih => rw [List.map_cons, List.map_cons, h.2.2.1, ih]

theorem SameData.shapes {es es' : List UElem} (h : List.Forall₂ SameData es es') :
    shapes es = shapes es' := by
  induction h with
  | nil => rfl
  | cons h _ ih => rw [UElem.shapes, UElem.shapes, h.2.2.2, ih]

theorem SameData.mixedBase {es es' : List UElem} (h : List.Forall₂ SameData es es')
    (sh : Option (List Nat)) : mixedBase es sh = mixedBase es' sh := by
  unfold Ufl.mixedBase
  rw [SameData.map_cell h, SameData.map_degree h, SameData.map_quad h, SameData.shapes h]

theorem SameData.replicate {a b : UElem} (h : SameData a b) (n : Nat) :
    List.Forall₂ SameData (List.replicate n a) (List.replicate n b) := by
  induction n with
  | zero => exact .nil
  | succ n ih => exact .cons h ih

theorem mkMixed_same {es es' : List UElem} (h : List.Forall₂ SameData es es') {e : UElem}
    (he : mkMixed es = .ok e) : ∃ e', mkMixed es' = .ok e' ∧ SameData e e' := by
  obtain ⟨b, hb, rfl⟩ := mkMixed_ok he
  refine ⟨.mixed b es', ?_, rfl, rfl, rfl, rfl⟩
  unfold mkMixed
  rw [← SameData.mixedBase h, hb]; rfl

theorem mkVectorOf_same {s s' : UElem} (h : SameData s s') {n : Nat} {v v' : Option String}
    {e : UElem} (he : mkVectorOf s (some n) v = .ok e) :
    ∃ e', mkVectorOf s' (some n) v' = .ok e' ∧ SameData e e' := by
  unfold mkVectorOf at he ⊢
  obtain ⟨n', hn, he⟩ := bind_ok he
  cases hn
  obtain ⟨sh, hsh, he⟩ := bind_ok he
  obtain ⟨b, hb, he⟩ := bind_ok he
  cases he
  rw [SameData.mixedBase (h.replicate n)] at hb
  simp only [← h.2.2.2, hsh, hb, bind, Except.bind]
  exact ⟨_, rfl, h.1, h.2.1, h.2.2.1, rfl⟩

theorem mkTensorOf_same {s s' : UElem} (h : SameData s s') {sh : List Nat} {sy : Symmetry}
    {v v' : Option String} {e : UElem} (he : mkTensorOf s (some sh) (.dict sy) v = .ok e) :
    ∃ e', mkTensorOf s' (some sh) (.dict sy) v' = .ok e' ∧ SameData e e' := by
  unfold mkTensorOf at he ⊢
  obtain ⟨_, hx, he⟩ := bind_ok he
  cases hx
  obtain ⟨_, hx, he⟩ := bind_ok he
  cases hx
  obtain ⟨u, hu, he⟩ := bind_ok he
  simp only at he
  obtain ⟨number, hn, he⟩ := bind_ok he
  obtain ⟨l, hl, he⟩ := bind_ok he
  obtain ⟨s0, hs0, he⟩ := bind_ok he
  obtain ⟨b, hb, he⟩ := bind_ok he
  cases he
  rw [SameData.mixedBase (h.replicate _)] at hb
  simp only [hu, hn, hl, ← h.2.2.2, hs0, hb, bind, Except.bind]
  exact ⟨_, rfl, rfl, h.2.1, rfl, rfl⟩

theorem mkProduct_same {es es' : List UElem} (h : List.Forall₂ SameData es es') {c : UCell}
    {e : UElem} (he : mkProduct es (some c) = .ok e) :
    ∃ e', mkProduct es' (some c) = .ok e' ∧ SameData e e' := by
  obtain ⟨c', ss, rfl, -, hne, hss, hl, hc, -⟩ := mkProduct_ok he
  cases hc c rfl
  refine ⟨.product ⟨"TensorProductElement", some c, .tuple (es'.map UElem.degree), none,
    ss.flatten⟩ es', ?_, rfl, ?_, rfl, rfl⟩
  · unfold mkProduct
    have : es'.isEmpty = false := by
      cases h with
      | nil => exact absurd rfl hne
      | cons _ _ => rfl
    rw [← SameData.shapes h, hss]
    simp only [this, Bool.false_eq_true, if_false, bind, Except.bind]
    rw [if_neg (by omega)]
  · show Deg.tuple _ = Deg.tuple _
    rw [SameData.map_degree h]

theorem mkEnriched_same {n : Bool} {es es' : List UElem} (h : List.Forall₂ SameData es es')
    {e : UElem} (he : mkEnriched n es = .ok e) :
    ∃ e', mkEnriched n es' = .ok e' ∧ SameData e e' := by
  cases h with
  | nil => cases he
  | @cons a b as bs hab hs =>
    have hl : List.Forall₂ SameData (a :: as) (b :: bs) := .cons hab hs
    have h1 : as.all (fun x => x.cell == a.cell) = bs.all (fun x => x.cell == b.cell) := by
      have : ∀ l : List UElem, l.all (fun x => x.cell == a.cell) =
          (l.map UElem.cell).all (· == a.cell) := by
        intro l; simp [List.all_map, Function.comp_def]
      rw [this, SameData.map_cell hs, hab.1]
      simp [List.all_map, Function.comp_def]
    unfold mkEnriched at he ⊢
    simp only at he ⊢
    rw [h1, SameData.map_degree hl, SameData.map_quad hl, hab.2.2.2, SameData.shapes hs,
      hab.1] at he
    split at he
    · cases he
    · next hc =>
      rw [if_neg hc]
      obtain ⟨d, hd, he⟩ := bind_ok he
      rw [hd]
      simp only [bind, Except.bind] at he ⊢
      split at he
      · cases he
      · next hq =>
        rw [if_neg hq]
        cases hb : b.shape with
        | error x => rw [hb] at he; cases he
        | ok sh =>
          rw [hb] at he
          simp only at he ⊢
          cases hbs : UElem.shapes bs with
          | error x => rw [hbs] at he; cases he
          | ok ss =>
            rw [hbs] at he
            simp only at he ⊢
            split at he
            · cases he
            · next ha =>
              rw [if_neg ha]
              cases he
              exact ⟨_, rfl, rfl, rfl, rfl, rfl⟩

theorem wrapBase_same {s s' : UElem} (h : SameData s s') : wrapBase s = wrapBase s' := by
  unfold wrapBase
  rw [h.1, h.2.1, h.2.2.1]

theorem reconstructs_of_good {es : List UElem} (h : ∀ s ∈ es, Good s) :
    reconstructs es = .ok es := reconstructs_fixed fun s hs => (h s hs).fixed

/-- A different variant is accepted by every element. -/
theorem reconstructWith_variant (v : Option String) {e : UElem} (hg : Good e) :
    ∃ e', reconstructWith (replacing .none none v) e = .ok e' ∧ SameData e e' := by
  induction hg with
  | @intro e hf hs ih =>
    have list : ∀ {subs : List UElem}, (∀ s ∈ subs, s ∈ children e) →
        ∃ es, reconstructsWith (replacing .none none v) subs = .ok es ∧
          List.Forall₂ SameData subs es := by
      intro subs
      induction subs with
      | nil => intro _; exact ⟨[], by rw [reconstructsWith], .nil⟩
      | cons s subs ihs =>
        intro hsub
        obtain ⟨a, ha, sa⟩ := ih s (hsub s List.mem_cons_self)
        obtain ⟨as, has, sas⟩ := ihs fun s hs => hsub s (List.mem_cons_of_mem _ hs)
        exact ⟨a :: as, by rw [reconstructsWith, ha, has]; rfl, .cons sa sas⟩
    unfold Fixed at hf
    cases e with
    | fe b o so m w em =>
      obtain ⟨e', he'⟩ := fe_again_ok (q' := b.quadScheme) (v' := v.or w) hf
      have := fe_again hf _ _ _ he'
      refine ⟨e', ?_, ?_⟩
      · rw [reconstructWith]
        simpa [replacing, Order.orElse] using he'
      · rw [this]
        rw [reconstruct] at hf
        obtain ⟨d, hd, hmk, -⟩ := newFe_simple hf
        obtain ⟨d0, hd0, he0⟩ := mkFe_ok hmk
        injection he0 with hb ho
        refine ⟨rfl, ?_, rfl, rfl⟩
        show b.degree = o.toDeg
        rw [hb, ho]
    | mixed b subs =>
      obtain ⟨es, hes, hsame⟩ := list (subs := subs) fun s hs => hs
      rw [reconstruct, reconstructs_of_good (es := subs) (hs ·)] at hf
      obtain ⟨e', he', hd⟩ := mkMixed_same hsame hf
      exact ⟨e', by rw [reconstructWith, hes]; exact he', hd⟩
    | vector b s dim w =>
      obtain ⟨s', hs', hsame⟩ := ih s (by simp [children])
      rw [reconstruct, (hs s (by simp [children])).fixed] at hf
      obtain ⟨e', he', hd⟩ := mkVectorOf_same (v' := s'.variant) hsame hf
      exact ⟨e', by rw [reconstructWith, hs']; exact he', hd⟩
    | tensor b s sh sy nu c m w =>
      obtain ⟨s', hs', hsame⟩ := ih s (by simp [children])
      rw [reconstruct, (hs s (by simp [children])).fixed] at hf
      obtain ⟨e', he', hd⟩ := mkTensorOf_same (v' := s'.variant) hsame hf
      exact ⟨e', by rw [reconstructWith, hs']; exact he', hd⟩
    | product b subs =>
      obtain ⟨c, hc⟩ := product_cell hf
      obtain ⟨es, hes, hsame⟩ := list (subs := subs) fun s hs => hs
      rw [reconstruct, reconstructs_of_good (es := subs) (hs ·), hc] at hf
      obtain ⟨e', he', hd⟩ := mkProduct_same hsame hf
      refine ⟨e', ?_, hd⟩
      rw [reconstructWith]
      show (do mkProduct (← reconstructsWith (replacing .none none v) subs) b.cell) = _
      rw [hes, hc]
      exact he'
    | enriched b n subs =>
      obtain ⟨es, hes, hsame⟩ := list (subs := subs) fun s hs => hs
      rw [reconstruct, reconstructs_of_good (es := subs) (hs ·)] at hf
      obtain ⟨e', he', hd⟩ := mkEnriched_same hsame hf
      exact ⟨e', by rw [reconstructWith, hes]; exact he', hd⟩
    | hdiv b s =>
      obtain ⟨s', hs', hsame⟩ := ih s (by simp [children])
      rw [reconstruct, (hs s (by simp [children])).fixed] at hf
      obtain ⟨b', hb, he⟩ := mkHDiv_ok hf
      cases he
      rw [wrapBase_same hsame] at hb
      refine ⟨.hdiv b s', ?_, rfl, rfl, rfl, rfl⟩
      rw [reconstructWith, hs']
      show mkHDiv s' = _
      unfold mkHDiv
      rw [hb]; rfl
    | hcurl b s =>
      obtain ⟨s', hs', hsame⟩ := ih s (by simp [children])
      rw [reconstruct, (hs s (by simp [children])).fixed] at hf
      obtain ⟨b', hb, he⟩ := mkHCurl_ok hf
      cases he
      rw [wrapBase_same hsame] at hb
      refine ⟨.hcurl b s', ?_, rfl, rfl, rfl, rfl⟩
      rw [reconstructWith, hs']
      show mkHCurl s' = _
      unfold mkHCurl
      rw [hb]; rfl
    | withMapping s m =>
      obtain ⟨s', hs', hsame⟩ := ih s (by simp [children])
      rw [reconstruct, (hs s (by simp [children])).fixed] at hf
      obtain ⟨hm, -⟩ := mkWithMapping_ok hf
      refine ⟨.withMapping s' m, ?_, hsame.1, hsame.2.1, hsame.2.2.1, ?_⟩
      · rw [reconstructWith]
        show (do mkWithMapping (← reconstructWith (replacing .none none v) s) m) = _
        rw [hs']
        show mkWithMapping s' m = _
        unfold mkWithMapping
        rw [if_neg hm]
      · have hc : s.base.cell = s'.base.cell := hsame.1
        rw [UElem.shape, UElem.shape, hc, hsame.2.2.2]
    | restricted b s dom =>
      obtain ⟨s', hs', hsame⟩ := ih s (by simp [children])
      rw [reconstruct, (hs s (by simp [children])).fixed] at hf
      obtain ⟨hm, sh, hsh, he⟩ := mkRestricted_ok hf
      cases he
      refine ⟨.restricted ⟨"RestrictedElement", s'.cell, s'.degree, s'.quadScheme, sh⟩ s' dom,
        ?_, hsame.1, hsame.2.1, hsame.2.2.1, rfl⟩
      rw [reconstructWith, hs']
      show mkRestricted s' dom = _
      unfold mkRestricted
      rw [← hsame.2.2.2, hsh]
      simp [hm, bind, Except.bind]
    | broken b s =>
      obtain ⟨s', hs', hsame⟩ := ih s (by simp [children])
      rw [reconstruct, (hs s (by simp [children])).fixed] at hf
      obtain ⟨sh, hsh, he⟩ := mkBroken_ok hf
      cases he
      refine ⟨.broken ⟨"BrokenElement", s'.cell, s'.degree, s'.quadScheme, sh⟩ s',
        ?_, hsame.1, hsame.2.1, hsame.2.2.1, rfl⟩
      rw [reconstructWith, hs']
      show mkBroken s' = _
      unfold mkBroken
      rw [← hsame.2.2.2, hsh]; rfl

end FInAT.Ufl
