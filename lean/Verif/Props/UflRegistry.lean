import Verif.Lemmas.Ufl.Registry
import Verif.Props.UflList

/-!
# C100: registering families and aliases

Registrations may be made at any time. Over all histories of them: a family is registered once; what is registered
is what is found; and descriptions obtained before stay the same, as long as nothing is registered under a known name.
The last condition is needed, as only the name of a family is checked.
-/

namespace FInAT.Props

open FInAT FInAT.Ufl

/-- With the families of the module, the relation is the function of C49-C51, so that there are results for all
arguments. -/
theorem C100_loaded (family : String) (cell : Option UCell) (order : Order) (k : Option Int) (r : Except Err Desc) :
    Registry.loaded.Describes family cell order k r ↔ canonicalElementDescription family cell order k = r :=
  ⟨fun h => (loaded_describes family cell order k).unique h, fun h => h ▸ loaded_describes family cell order k⟩

/-- There is at most one result. -/
theorem C100_unique {R : Registry} {family : String} {cell : Option UCell} {order : Order} {k : Option Int}
    {r r' : Except Err Desc} (h : R.Describes family cell order k r) (h' : R.Describes family cell order k r') :
    r = r' :=
  h.unique h'

/-- `register_element` raises `ValueError` exactly if there is a family, or a short name, of this name. It then
changes nothing. Otherwise it raises nothing, and `register_alias` never does. -/
theorem C100_raises (R : Registry) (e : Entry) (name : String) (fn : AliasFn) :
    (R.elements.get? e.family ≠ none → R.call (.element e) = (R, some .valueError)) ∧
    (R.elements.get? e.family = none → (R.call (.element e)).2 = none) ∧ (R.call (.rename name fn)).2 = none := by
  refine ⟨fun h => ?_, fun h => ?_, rfl⟩
  · have : (R.elements.get? e.family).isSome = true := by
      cases hg : R.elements.get? e.family with
      | none => exact absurd hg h
      | some _ => rfl
    simp only [Registry.call, registerElement, this, if_true]
  · simp only [Registry.call, registerElement, h]
    cases e.shortName <;> rfl

/-- Whatever has been registered before, a registered family cannot be registered again. -/
theorem C100_once (R : Registry) (cs : List Call) {e e' : Entry} (hf : e'.family = e.family)
    (h : (R.call (.element e)).2 = none) :
    (((R.call (.element e)).1.calls cs).call (.element e')).2 = some .valueError := by
  have hreg : (R.call (.element e)).1.elements.get? e.family ≠ none := by
    simp only [Registry.call] at h ⊢
    cases hr : registerElement R.elements e with
    | error _ => rw [hr] at h; cases h
    | ok d =>
      simp only [registered_get hr (n := e.family) (by simp [Call.names])]
      exact fun h => nomatch h
  rw [(C100_raises _ e' "" fun f _ o _ => .ok (f, o)).1 (hf ▸ calls_registered hreg)]

/-- Over every history of registrations under new names, whatever was described before is described the same. -/
theorem C100_kept_partial {R : Registry} {cs : List Call} (hf : R.Fresh cs) {family : String} {cell : Option UCell}
    {order : Order} {k : Option Int} {d : Desc} (h : R.Describes family cell order k (.ok d)) :
    (R.calls cs).Describes family cell order k (.ok d) :=
  describes_kept (calls_kept hf) h

/-- What the families of the module give is given after every such history. -/
theorem C100_loaded_kept_partial {cs : List Call} (hf : Registry.loaded.Fresh cs) {family : String}
    {cell : Option UCell} {order : Order} {k : Option Int} {d : Desc}
    (h : canonicalElementDescription family cell order k = .ok d) :
    (Registry.loaded.calls cs).Describes family cell order k (.ok d) :=
  C100_kept_partial hf ((C100_loaded ..).mpr h)

/-- After any history, a family that can be registered is found under its name and its short name: with the data it
was registered with on the cells and with the orders it was registered for, and a `ValueError` otherwise. Names that
are aliases are excepted, and the four that are read as forms. -/
theorem C100_new (cs : List Call) {e : Entry} (h : ((Registry.loaded.calls cs).call (.element e)).2 = none)
    {name : String} (hn : name ∈ (Call.element e).names) (hs : name ∉ ["P", "S", "P L2", "S L2"])
    (ha : (Registry.loaded.calls cs).aliases.get? name = none) (hrank : e.valueRank ≤ 2)
    (hg : infixOf "Guzman-Neilan" e.family = false) (hb : infixOf "Bernardi-Raugel" e.family = false)
    (n : CellName) (order : Order) (k : Option Int) :
    (Accepts e n order → ((Registry.loaded.calls cs).call (.element e)).1.Describes name (some (.named n)) order k
      (.ok ⟨e.family, e.shortName, order, List.replicate e.valueRank n.tdim, e.sobolev, e.mapping, order⟩)) ∧
    (¬ Accepts e n order → ((Registry.loaded.calls cs).call (.element e)).1.Describes name (some (.named n)) order k
      (.error .valueError)) := by
  have hother : ∀ f, (uflElements.get? f).isSome = true → e.family ≠ f := by
    intro f hf he
    have hf : uflElements.get? f ≠ none := fun h => by rw [h] at hf; cases hf
    have h1 : (Registry.loaded.calls cs).elements.get? e.family ≠ none := calls_registered (by rw [he, loaded_elements]; exact hf)
    rw [(C100_raises _ e "" fun f _ o _ => .ok (f, o)).1 h1] at h
    cases h
  have hcube := cubeFamily_other (cell := some (.named n)) (f := e.family) (o := order)
    (hother "Lagrange" (by decide +kernel)) (hother "Discontinuous Lagrange" (by decide +kernel)) (hother "Discontinuous Lagrange L2" (by decide +kernel))
  have hget : ((Registry.loaded.calls cs).call (.element e)).1.elements.get? name = some e := by
    simp only [Registry.call] at h ⊢
    cases hr : registerElement (Registry.loaded.calls cs).elements e with
    | error _ => rw [hr] at h; cases h
    | ok d => exact registered_get hr hn
  have hal : ((Registry.loaded.calls cs).call (.element e)).1.aliases.get? name = none := by
    rw [← ha]
    simp only [Registry.call]
    split <;> rfl
  have hd := fun o => describes_plain (c := some (.named n)) (o := o) (k := k) hs hal hget
  have hshape : shapeOf (some n.tdim) e.valueRank = .ok (List.replicate e.valueRank n.tdim) := by
    rcases hv : e.valueRank with _ | _ | _ | v
    · rfl
    · rfl
    · rfl
    · rw [hv] at hrank
      exact absurd hrank (by simp)
  constructor
  · intro ⟨h1, h2⟩
    have h1' : cellAllowed (some (.named n)) e.cellnames = true := h1
    have h2' := (orderAllowed_within order e.kmin e.kmax).mpr h2
    have := hd order
    simp only [describeEntry, hcube, bind, Except.bind, h1', h2', tdimOf, UCell.tdim, Option.map, hshape, embeddedOf,
      hg, hb] at this
    exact this
  · intro hna
    have := hd order
    simp only [describeEntry, hcube, bind, Except.bind] at this
    by_cases h1 : cellAllowed (some (.named n)) e.cellnames = true
    · have h2 : orderAllowed order e.kmin e.kmax = false := by
        rw [Bool.eq_false_iff]
        exact fun h2 => hna ⟨h1, (orderAllowed_within order e.kmin e.kmax).mp h2⟩
      simp only [h1, h2] at this
      exact this
    · rw [Bool.not_eq_true] at h1
      simp only [h1] at this
      exact this

/-- A new alias for a family: after `register_alias`, the alias gives what the family gives. -/
theorem C100_alias {R : Registry} {name family : String} {fn : AliasFn} (hn : name ∉ ["P", "S", "P L2", "S L2"])
    (hf : family ∉ ["P", "S", "P L2", "S L2"]) (hne : ¬ R.Known name) (hto : ∀ f n o k, fn f n o k = .ok (family, o))
    {cell : UCell} {order : Order} {k : Option Int} {d : Desc} (h : R.Describes family (some cell) order k (.ok d)) :
    (R.call (.rename name fn)).1.Describes name (some cell) order k (.ok d) := by
  have h' : (R.call (.rename name fn)).1.Describes family (some cell) order k (.ok d) :=
    C100_kept_partial (cs := [.rename name fn]) ⟨fun m hm => by
      simp only [Call.names, List.mem_singleton] at hm
      exact hm ▸ hne, trivial⟩ h
  have hstep : (R.call (.rename name fn)).1.step (tdimOf (some cell)) k (name, order) = some (.ok (family, order)) := by
    simp only [Registry.step, Registry.call, Dict.get?_set, if_true, tdimOf, Option.map, hto]
  generalize hr : Except.ok d = r at h' ⊢
  cases h' with
  | feec _ => cases hr
  | unresolved _ _ => cases hr
  | found h1 h2 =>
    rw [catchFeec_other hf] at h1
    cases h1
    exact .found (catchFeec_other hn) (.next hstep h2)

/-! ## The limits, and a concrete history -/

namespace RegistryExample

/-- A family of a user. -/
def mine : Entry := ⟨"My element", some "ME", 1, .hDiv, "contravariant Piola", some 1, some 3,
  .names ["triangle", "tetrahedron"]⟩

/-- A family whose short name is that of Lagrange elements. -/
def clash : Entry := { mine with shortName := some "CG" }

/-- A family whose name is an alias of the module. -/
def covered : Entry := { mine with family := "Lob", shortName := none }

/-- The alias of one name for another. -/
def toName (family : String) : AliasFn := fun _ _ o _ => .ok (family, o)

/-- A family and an alias of it. -/
def history : List Call := [.element mine, .rename "Mine" (toName "My element")]

theorem free {n : String} (h : (uflElements.get? n).isSome = false) : Registry.loaded.elements.get? n = none := by
  rw [loaded_elements]
  cases hg : uflElements.get? n with
  | none => rfl
  | some e => rw [hg] at h; cases h

theorem mine_new : (Registry.loaded.call (.element mine)).2 = none :=
  (C100_raises Registry.loaded mine "" (toName "")).2.1 (free (by decide +kernel))

theorem unknown {n : String} (h1 : (uflElements.get? n).isSome = false) (h2 : Ufl.aliases.get? n = none) :
    ¬ Registry.loaded.Known n := by
  rintro (h | h)
  · exact h (free h1)
  · exact h (by simp only [Registry.loaded, get?_map_snd, h2]; rfl)

theorem history_fresh : Registry.loaded.Fresh history := by
  refine ⟨fun n hn => ?_, fun n hn => ?_, trivial⟩
  · simp only [Call.names, mine, Option.toList, List.mem_cons, List.not_mem_nil, or_false] at hn
    rcases hn with rfl | rfl <;> exact unknown (by decide +kernel) (by decide +kernel)
  · simp only [Call.names, List.mem_singleton] at hn
    subst hn
    have hno : "Mine" ∉ (Call.element mine).names := by decide
    unfold Registry.Known
    rw [call_elements hno, call_aliases hno]
    exact unknown (by decide +kernel) (by decide +kernel)

end RegistryExample

open RegistryExample

/-- Non-vacuity of `C100_loaded_kept_partial`: Lagrange elements are what they were. -/
example : (Registry.loaded.calls history).Describes "CG" (some (.named .quadrilateral)) (.int 2) none
    (.ok ⟨"Q", some "CG", .int 2, [], .h1, "identity", .int 2⟩) :=
  C100_loaded_kept_partial history_fresh UflListCases.cg_quad

/-- Non-vacuity of `C100_new`: the family is found under its short name on a triangle, not on an interval, and not
with order four. -/
example : (Registry.loaded.call (.element mine)).1.Describes "ME" (some (.named .triangle)) (.int 2) none
      (.ok ⟨"My element", some "ME", .int 2, [2], .hDiv, "contravariant Piola", .int 2⟩) ∧
    (Registry.loaded.call (.element mine)).1.Describes "ME" (some (.named .interval)) (.int 2) none
      (.error .valueError) ∧
    (Registry.loaded.call (.element mine)).1.Describes "ME" (some (.named .triangle)) (.int 4) none
      (.error .valueError) := by
  have h := C100_new [] mine_new (name := "ME") (by decide) (by decide)
    (by simp only [Registry.calls, Registry.loaded, get?_map_snd]; decide +kernel) (by decide)
    (by decide +kernel) (by decide +kernel)
  refine ⟨(h .triangle (.int 2) none).1 ⟨by decide +kernel, ?_⟩, (h .interval (.int 2) none).2 fun ha => ?_,
    (h .triangle (.int 4) none).2 fun ha => ?_⟩
  · simp [WithinRange, mine]
  · exact absurd ha.1 (by decide +kernel)
  · have := ha.2.2 3 rfl
    exact absurd this (by decide)

/-- Non-vacuity of `C100_alias`: an alias of the Lagrange elements. -/
example : (Registry.loaded.call (.rename "Mine" (toName "CG"))).1.Describes "Mine" (some (.named .quadrilateral)) (.int 2)
    none (.ok ⟨"Q", some "CG", .int 2, [], .h1, "identity", .int 2⟩) :=
  C100_alias (by decide) (by decide) (unknown (by decide +kernel) (by decide +kernel)) (fun _ _ _ _ => rfl)
    ((C100_loaded ..).mpr UflListCases.cg_quad)

/-- Non-vacuity of `C100_once`. -/
example : (((Registry.loaded.call (.element mine)).1.calls history).call (.element clash)).2 = some .valueError :=
  C100_once Registry.loaded history rfl mine_new

/-- The limit of `C100_kept_partial` for short names: they are not checked, so that a family may take over the name
"CG" of Lagrange elements without an exception. -/
theorem C100_short_name : (Registry.loaded.call (.element clash)).2 = none ∧
    canonicalElementDescription "CG" (some (.named .triangle)) (.int 2) none =
      .ok ⟨"Lagrange", some "CG", .int 2, [], .h1, "identity", .int 2⟩ ∧
    (Registry.loaded.call (.element clash)).1.Describes "CG" (some (.named .triangle)) (.int 2) none
      (.ok ⟨"My element", some "CG", .int 2, [2], .hDiv, "contravariant Piola", .int 2⟩) := by
  have hnew : (Registry.loaded.call (.element clash)).2 = none :=
    (C100_raises Registry.loaded clash "" (toName "")).2.1 (free (by decide +kernel))
  refine ⟨hnew, by rw [UflListCases.canonical_eq_fast]; decide +kernel, ?_⟩
  have h := C100_new [] hnew (name := "CG") (by decide) (by decide)
    (by simp only [Registry.calls, Registry.loaded, get?_map_snd]; decide +kernel) (by decide)
    (by decide +kernel) (by decide +kernel)
  exact (h .triangle (.int 2) none).1 ⟨by decide +kernel, by simp [WithinRange, clash, mine]⟩

/-- The limit for aliases: a known family may be redirected, without an exception. Here Lagrange elements become those
of Crouzeix and Raviart. -/
theorem C100_redirect : (Registry.loaded.call (.rename "CG" (toName "CR"))).2 = none ∧
    (Registry.loaded.call (.rename "CG" (toName "CR"))).1.Describes "CG" (some (.named .triangle)) (.int 1) none
      (.ok ⟨"Crouzeix-Raviart", some "CR", .int 1, [], .l2, "identity", .int 1⟩) := by
  refine ⟨rfl, ?_⟩
  have hd : (Registry.loaded.call (.rename "CG" (toName "CR"))).1.lookup (some (.named .triangle)) ("CR", .int 1) =
      .ok ⟨"Crouzeix-Raviart", some "CR", .int 1, [], .l2, "identity", .int 1⟩ := by
    have h1 : ∀ c s, (Registry.loaded.call (.rename "CG" (toName "CR"))).1.lookup c s = Registry.loaded.lookup c s :=
      fun _ _ => by simp only [Registry.lookup, Registry.call]
    rw [h1, loaded_lookup]
    decide +kernel
  rw [← hd]
  refine .found (s := ("CG", .int 1)) (catchFeec_other (by decide)) (.next (s' := ("CR", .int 1)) ?_ (.done ?_))
  · simp only [Registry.step, Registry.call, Dict.get?_set, if_true]
    rfl
  · have h1 : (Registry.loaded.call (.rename "CG" (toName "CR"))).1.aliases.get? "CR" = none := by
      rw [call_aliases (by decide)]
      simp only [Registry.loaded, get?_map_snd]
      decide +kernel
    simp only [Registry.step, h1]

/-- The limit of `C100_new`: a family may be registered under the name of an alias, and is then not found under it. -/
theorem C100_hidden : (Registry.loaded.call (.element covered)).2 = none ∧
    (Registry.loaded.call (.element covered)).1.Describes "Lob" (some (.named .triangle)) (.int 2) none
      (.error .valueError) ∧ Accepts covered .triangle (.int 2) := by
  refine ⟨(C100_raises Registry.loaded covered "" (toName "")).2.1 (free (by decide +kernel)), ?_, by decide +kernel,
    by simp [WithinRange, covered, mine]⟩
  have hno : "Gauss-Lobatto-Legendre" ∉ (Call.element covered).names := by decide
  have hd : (Registry.loaded.call (.element covered)).1.lookup (some (.named .triangle))
      ("Gauss-Lobatto-Legendre", .int 2) = .error .valueError := by
    have h1 : (Registry.loaded.call (.element covered)).1.lookup (some (.named .triangle))
        ("Gauss-Lobatto-Legendre", .int 2) =
        Registry.loaded.lookup (some (.named .triangle)) ("Gauss-Lobatto-Legendre", .int 2) := by
      unfold Registry.lookup
      rw [call_elements hno]
    rw [h1, loaded_lookup]
    decide +kernel
  rw [← hd]
  have hal : ∀ n, (Registry.loaded.call (.element covered)).1.aliases.get? n = (Ufl.aliases.get? n).map applyAlias := by
    intro n
    rw [← get?_map_snd]
    simp only [Registry.call]
    split <;> rfl
  refine .found (s := ("Lob", .int 2)) (catchFeec_other (by decide))
    (.next (s' := ("Gauss-Lobatto-Legendre", .int 2)) ?_ (.done ?_))
  · have : Ufl.aliases.get? "Lob" = some (.to "Gauss-Lobatto-Legendre") := by decide +kernel
    simp only [Registry.step, hal, this]
    rfl
  · have : Ufl.aliases.get? "Gauss-Lobatto-Legendre" = none := by decide +kernel
    simp only [Registry.step, hal, this]
    rfl

/-- Nothing prevents an alias of a name for itself; the name then has no result at all: the loop does not end. -/
theorem C100_endless (R : Registry) {name : String} (hn : name ∉ ["P", "S", "P L2", "S L2"]) (cell : UCell)
    (order : Order) (k : Option Int) :
    ¬ ∃ r, (R.call (.rename name (toName name))).1.Describes name (some cell) order k r := by
  have key : ∀ s r, s = (name, order) →
      ¬ (R.call (.rename name (toName name))).1.Resolved (tdimOf (some cell)) k s r := by
    intro s r hs h
    have hstep : (R.call (.rename name (toName name))).1.step (tdimOf (some cell)) k (name, order)
        = some (.ok (name, order)) := by
      simp only [Registry.step, Registry.call, Dict.get?_set, if_true, tdimOf, Option.map, toName]
    induction h with
    | done h => rw [hs, hstep] at h; cases h
    | raised h => rw [hs, hstep] at h; cases h
    | next h _ ih =>
      rw [hs, hstep] at h
      cases h
      exact ih rfl
  rintro ⟨r, h⟩
  cases h with
  | feec h => rw [catchFeec_other hn] at h; cases h
  | unresolved h hr => rw [catchFeec_other hn] at h; cases h; exact key _ _ rfl hr
  | found h hr => rw [catchFeec_other hn] at h; cases h; exact key _ _ rfl hr

end FInAT.Props
