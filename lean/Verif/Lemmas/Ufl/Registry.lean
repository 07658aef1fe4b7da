import Verif.Spec.UflRegistry
import Verif.Lemmas.Monad
import Verif.Lemmas.Ufl.ElementList

/-!
# Lemmas on the registration of families and aliases
-/

namespace FInAT.Ufl

open FInAT

theorem Registry.Resolved.unique {R : Registry} {tdim : Option Nat} {k : Option Int} {s : String × Order}
    {r r' : Except Err (String × Order)} (h : R.Resolved tdim k s r) (h' : R.Resolved tdim k s r') : r = r' := by
  induction h with
  | done h1 =>
    cases h' with
    | done _ => rfl
    | raised h2 => rw [h1] at h2; cases h2
    | next h2 _ => rw [h1] at h2; cases h2
  | raised h1 =>
    cases h' with
    | done h2 => rw [h1] at h2; cases h2
    | raised h2 => rw [h1] at h2; cases h2; rfl
    | next h2 _ => rw [h1] at h2; cases h2
  | next h1 _ ih =>
    cases h' with
    | done h2 => rw [h1] at h2; cases h2
    | raised h2 => rw [h1] at h2; cases h2
    | next h2 hr => rw [h1] at h2; cases h2; exact ih hr

theorem Registry.Describes.unique {R : Registry} {f : String} {c : Option UCell} {o : Order} {k : Option Int}
    {r r' : Except Err Desc} (h : R.Describes f c o k r) (h' : R.Describes f c o k r') : r = r' := by
  cases h with
  | feec h1 =>
    cases h' with
    | feec h2 => rw [h1] at h2; cases h2; rfl
    | unresolved h2 _ => rw [h1] at h2; cases h2
    | found h2 _ => rw [h1] at h2; cases h2
  | unresolved h1 hr1 =>
    cases h' with
    | feec h2 => rw [h1] at h2; cases h2
    | unresolved h2 hr2 => rw [h1] at h2; cases h2; have := hr1.unique hr2; cases this; rfl
    | found h2 hr2 => rw [h1] at h2; cases h2; have := hr1.unique hr2; cases this
  | found h1 hr1 =>
    cases h' with
    | feec h2 => rw [h1] at h2; cases h2
    | unresolved h2 hr2 => rw [h1] at h2; cases h2; have := hr1.unique hr2; cases this
    | found h2 hr2 => rw [h1] at h2; cases h2; have := hr1.unique hr2; cases this; rfl

/-! ## The dictionaries of the module -/

theorem get?_map_snd {ν μ : Type} (f : ν → μ) (d : Dict String ν) (k : String) :
    Dict.get? (d.map fun p => (p.1, f p.2)) k = (d.get? k).map f := by
  induction d with
  | nil => rfl
  | cons p t ih =>
    obtain ⟨k', v'⟩ := p
    rw [List.map_cons, Dict.get?, Dict.get?]
    split
    · rfl
    · exact ih

theorem loaded_elements : Registry.loaded.elements = uflElements := by
  simp only [Registry.loaded]

theorem loaded_step (tdim : Option Nat) (k : Option Int) (s : String × Order) :
    Registry.loaded.step tdim k s = aliasStep tdim k s := by
  unfold Registry.step aliasStep Registry.loaded
  simp only [get?_map_snd]
  cases h : aliases.get? s.1 with
  | none => rfl
  | some rule => rfl

theorem loaded_resolved (tdim : Option Nat) (k : Option Int) (s : String × Order) :
    Registry.loaded.Resolved tdim k s (resolve tdim k s) := by
  rw [resolve]
  split
  · next h => exact .done (by rw [loaded_step]; exact h)
  · next e h => exact .raised (by rw [loaded_step]; exact h)
  · next s' h => exact .next (by rw [loaded_step]; exact h) (loaded_resolved tdim k s')
termination_by aliasRank s.1
decreasing_by exact aliasStep_rank (by assumption)

theorem loaded_lookup (c : Option UCell) (s : String × Order) : Registry.loaded.lookup c s = describe c s := by
  unfold describe Registry.lookup
  rw [loaded_elements]
  cases uflElements.get? s.1 <;> rfl

theorem loaded_describes (f : String) (c : Option UCell) (o : Order) (k : Option Int) :
    Registry.loaded.Describes f c o k (canonicalElementDescription f c o k) := by
  unfold canonicalElementDescription
  cases h : catchFeec (tdimOf c) k (f, o) with
  | error e => exact .feec h
  | ok s =>
    have hr := loaded_resolved (tdimOf c) k s
    simp only [bind, Except.bind]
    cases h2 : resolve (tdimOf c) k s with
    | error e => rw [h2] at hr; exact .unresolved h hr
    | ok s' =>
      rw [h2] at hr
      simp only [← loaded_lookup]
      exact .found h hr

/-! ## What a call changes -/

theorem call_elements {R : Registry} {c : Call} {n : String} (h : n ∉ c.names) :
    ((R.call c).1).elements.get? n = R.elements.get? n := by
  cases c with
  | rename name fn => rfl
  | element e =>
    simp only [Registry.call, registerElement]
    by_cases hk : (R.elements.get? e.family).isSome = true
    · rw [if_pos hk]
    · rw [if_neg hk]
      have h1 : e.family ≠ n := fun h' => h (by rw [← h']; simp [Call.names])
      cases hs : e.shortName with
      | none => simp only [Dict.get?_set, h1, if_false]
      | some s =>
        have h2 : s ≠ n := fun h' => h (by rw [← h']; simp [Call.names, hs])
        simp only [Dict.get?_set, h1, h2, if_false]

theorem call_aliases {R : Registry} {c : Call} {n : String} (h : n ∉ c.names) :
    ((R.call c).1).aliases.get? n = R.aliases.get? n := by
  cases c with
  | rename name fn =>
    have h1 : name ≠ n := fun h' => h (by rw [← h']; simp [Call.names])
    simp only [Registry.call, Dict.get?_set, h1, if_false]
  | element e =>
    simp only [Registry.call]
    split <;> rfl

/-- Known names have the same meaning after calls about new names. -/
theorem calls_kept : ∀ {cs : List Call} {R : Registry}, R.Fresh cs → ∀ n, R.Known n →
    (R.calls cs).elements.get? n = R.elements.get? n ∧ (R.calls cs).aliases.get? n = R.aliases.get? n
  | [], _, _, _, _ => ⟨rfl, rfl⟩
  | c :: cs, R, hf, n, hn => by
    have hc : n ∉ c.names := fun h => hf.1 n h hn
    have h1 := call_elements (R := R) hc
    have h2 := call_aliases (R := R) hc
    have hn' : ((R.call c).1).Known n := by
      unfold Registry.Known
      rw [h1, h2]
      exact hn
    obtain ⟨h3, h4⟩ := calls_kept hf.2 n hn'
    exact ⟨h3.trans h1, h4.trans h2⟩

theorem resolved_kept {R R' : Registry} (ha : ∀ n, R.Known n → R'.aliases.get? n = R.aliases.get? n)
    {tdim : Option Nat} {k : Option Int} {s : String × Order} {r : Except Err (String × Order)}
    (h : R.Resolved tdim k s r) (hr : ∀ s', r = .ok s' → R.Known s'.1) : R'.Resolved tdim k s r := by
  have step : ∀ s : String × Order, R.Known s.1 → R'.step tdim k s = R.step tdim k s := by
    intro s hs
    unfold Registry.step
    rw [ha _ hs]
  have known : ∀ {s : String × Order} {x}, R.step tdim k s = some x → R.Known s.1 := by
    intro s x h
    refine .inr fun hn => ?_
    unfold Registry.step at h
    rw [hn] at h
    cases h
  induction h with
  | done h => exact .done ((step _ (hr _ rfl)).trans h)
  | raised h => exact .raised ((step _ (known h)).trans h)
  | next h _ ih => exact .next ((step _ (known h)).trans h) (ih hr)

theorem describes_kept {R R' : Registry}
    (he : ∀ n, R.Known n → R'.elements.get? n = R.elements.get? n ∧ R'.aliases.get? n = R.aliases.get? n)
    {f : String} {c : Option UCell} {o : Order} {k : Option Int} {d : Desc} (h : R.Describes f c o k (.ok d)) :
    R'.Describes f c o k (.ok d) := by
  generalize hr : Except.ok d = r at h
  cases h with
  | feec _ => cases hr
  | unresolved _ _ => cases hr
  | @found s s' h1 h2 =>
    have hk : R.Known s'.1 := by
      refine .inl fun hn => ?_
      unfold Registry.lookup at hr
      rw [hn] at hr
      cases hr
    have : R'.lookup c s' = R.lookup c s' := by
      unfold Registry.lookup
      rw [(he _ hk).1]
    rw [← this]
    refine .found h1 (resolved_kept (fun n hn => (he n hn).2) h2 ?_)
    intro s'' hs
    cases hs
    exact hk

/-! ## New families -/

theorem orderAllowed_within (o : Order) (kmin kmax : Option Int) :
    orderAllowed o kmin kmax = true ↔ WithinRange kmin kmax o := by
  cases o with
  | none => simp [orderAllowed, WithinRange]
  | int r => cases kmin <;> cases kmax <;> simp [orderAllowed, WithinRange, Order.allGe, Order.allLe]
  | tuple rs =>
    cases kmin <;> cases kmax <;> simp [orderAllowed, WithinRange, Order.allGe, Order.allLe, forall_and]

theorem registered_get {d d' : Dict String Entry} {e : Entry} (h : registerElement d e = .ok d') {n : String}
    (hn : n ∈ (Call.element e).names) : d'.get? n = some e := by
  unfold registerElement at h
  split at h
  · cases h
  · cases hs : e.shortName with
    | none =>
      simp only [hs] at h
      cases h
      simp only [Call.names, hs, Option.toList, List.mem_singleton] at hn
      rw [hn, Dict.get?_set, if_pos rfl]
    | some s =>
      simp only [hs] at h
      cases h
      simp only [Call.names, hs, Option.toList, List.mem_cons, List.not_mem_nil, or_false] at hn
      rw [Dict.get?_set, Dict.get?_set]
      by_cases h1 : s = n
      · rw [if_pos h1]
      · rw [if_neg h1]
        rcases hn with rfl | rfl
        · rw [if_pos rfl]
        · exact absurd rfl h1

/-- Families once registered stay registered. -/
theorem call_registered {R : Registry} {c : Call} {n : String} (h : R.elements.get? n ≠ none) :
    ((R.call c).1).elements.get? n ≠ none := by
  cases c with
  | rename name fn => exact h
  | element e =>
    simp only [Registry.call, registerElement]
    by_cases hk : (R.elements.get? e.family).isSome = true
    · rw [if_pos hk]; exact h
    · rw [if_neg hk]
      cases e.shortName with
      | none =>
        simp only [Dict.get?_set]
        split
        · exact fun h => nomatch h
        · exact h
      | some s =>
        simp only [Dict.get?_set]
        split
        · exact fun h => nomatch h
        · split
          · exact fun h => nomatch h
          · exact h

theorem calls_registered : ∀ {cs : List Call} {R : Registry} {n : String}, R.elements.get? n ≠ none →
    (R.calls cs).elements.get? n ≠ none
  | [], _, _, h => h
  | _ :: cs, _, _, h => calls_registered (cs := cs) (call_registered h)

theorem cubeFamily_other {cell : Option UCell} {f : String} {o : Order} (h1 : f ≠ "Lagrange")
    (h2 : f ≠ "Discontinuous Lagrange") (h3 : f ≠ "Discontinuous Lagrange L2") : cubeFamily cell f o = .ok f := by
  unfold cubeFamily
  rw [if_neg h1, if_neg h2, if_neg h3]
  split <;> rfl

theorem catchFeec_other {tdim : Option Nat} {k : Option Int} {f : String} {o : Order}
    (h : f ∉ ["P", "S", "P L2", "S L2"]) : catchFeec tdim k (f, o) = .ok (f, o) := by
  simp only [List.mem_cons, List.not_mem_nil, or_false, not_or] at h
  obtain ⟨h1, h2, h3, h4⟩ := h
  simp [catchFeec, h1, h2, h3, h4, bind, Except.bind]

theorem describes_plain {R : Registry} {f : String} {c : Option UCell} {o : Order} {k : Option Int} {e : Entry}
    (h : f ∉ ["P", "S", "P L2", "S L2"]) (ha : R.aliases.get? f = none) (he : R.elements.get? f = some e) :
    R.Describes f c o k (describeEntry e c o) := by
  have : describeEntry e c o = R.lookup c (f, o) := by
    unfold Registry.lookup
    simp only [he]
  rw [this]
  refine .found (catchFeec_other h) (.done ?_)
  unfold Registry.step
  simp only [ha]

end FInAT.Ufl
