import Verif.Lemmas.Monad
import Verif.Lemmas.Ufl.Feec

/-!
# C49, C50, C51: the UFL element list
-/

namespace FInAT.Props

open FInAT.Ufl

/-! ## C49: family resolution ends and is idempotent -/

/-- **C49** (termination). Whatever family, cell dimension, order and form degree the
alias loop starts from, it cannot go on: no three consecutive rewritings exist, and the
result of the loop is reached after at most two. -/
theorem C49_terminates (tdim : Option Nat) (k : Option Int) :
    (¬ ∃ run : Nat → String × Order,
      ∀ i, i < 3 → aliasStep tdim k (run i) = some (.ok (run (i + 1)))) ∧
    (∀ s, resolve tdim k s = resolveN tdim k 2 s) := by
  refine ⟨?_, fun s => resolve_eq_resolveN _ _ _ _ (aliasRank_le _)⟩
  rintro ⟨run, h⟩
  have h0 := aliasStep_rank (h 0 (by omega))
  have h1 := aliasStep_rank (h 1 (by omega))
  have h2 := aliasStep_rank (h 2 (by omega))
  have := aliasRank_le (run 0).1
  simp only [Nat.reduceAdd] at h0 h1 h2
  omega

/-- **C49** (no alias survives). The family of an accepted description is a registered
one under its own name and not an alias. -/
theorem C49_canonical {family : String} {cell : Option UCell} {order : Order} {k : Option Int}
    {d : Desc} (h : canonicalElementDescription family cell order k = .ok d) :
    (∃ e ∈ registrations, e.family = d.family) ∧ aliases.get? d.family = none := by
  obtain ⟨s, e, -, hget, hcube, -⟩ := canonical_ok h
  have hp := get?_mem hget
  obtain ⟨hg, ha, -, -, -, -, hreg⟩ := table_facts _ hp
  obtain ⟨c1, c2, c3⟩ := cube_facts _ hp
  simp only at hg ha hreg c1 c2 c3
  have key : ∀ e', uflElements.get? d.family = some e' → e'.family = d.family →
      (∃ e ∈ registrations, e.family = d.family) ∧ aliases.get? d.family = none := by
    intro e' he' hf
    obtain ⟨-, ha', -, -, -, -, hreg'⟩ := table_facts _ (get?_mem he')
    simp only at ha' hreg'
    exact ⟨⟨e', hreg', hf⟩, hf ▸ ha'⟩
  rcases cubeFamily_ok hcube with he | ⟨-, ⟨h1, h2⟩ | ⟨h1, h2⟩ | ⟨h1, h2⟩⟩
  · exact ⟨⟨e, hreg, he.symm⟩, he ▸ ha⟩
  · obtain ⟨e', he', hf, -⟩ := c1 h1
    exact key e' (h2 ▸ he') (hf.trans h2.symm)
  · obtain ⟨e', he', hf, -⟩ := c2 h1
    exact key e' (h2 ▸ he') (hf.trans h2.symm)
  · obtain ⟨e', he', hf, -⟩ := c3 h1
    exact key e' (h2 ▸ he') (hf.trans h2.symm)

/-- The registered data behind an accepted description: an entry found under the family
of the description, with the same Sobolev space, mapping and ranges. -/
theorem canonical_entry {family : String} {cell : Option UCell} {order : Order}
    {k : Option Int} {d : Desc}
    (h : canonicalElementDescription family cell order k = .ok d) :
    ∃ e ∈ registrations, e.family = d.family ∧ e.sobolev = d.sobolev ∧
      e.mapping = d.mapping ∧ cellAllowed cell e.cellnames = true ∧
      orderAllowed d.order e.kmin e.kmax = true ∧
      shapeOf (tdimOf cell) e.valueRank = .ok d.shape ∧
      cubeFamily cell e.family d.order = .ok e.family := by
  obtain ⟨s, e, -, hget, hcube, hcell, hord, hshape, -, ho, hsob, hmap, -⟩ := canonical_ok h
  have hp := get?_mem hget
  obtain ⟨hg, ha, -, -, -, -, hreg⟩ := table_facts _ hp
  obtain ⟨c1, c2, c3⟩ := cube_facts _ hp
  simp only at hg ha hreg c1 c2 c3
  have key : ∀ f', isCubeLike cell = true → d.family = f' →
      (∃ e', uflElements.get? f' = some e' ∧ e'.family = f' ∧
        e'.valueRank = e.valueRank ∧ e'.sobolev = e.sobolev ∧ e'.mapping = e.mapping ∧
        e'.kmin = e.kmin ∧ e'.kmax = e.kmax ∧ e'.cellnames = .names cubes) →
      cubeFamily cell f' d.order = .ok f' →
      ∃ e ∈ registrations, e.family = d.family ∧ e.sobolev = d.sobolev ∧
      e.mapping = d.mapping ∧ cellAllowed cell e.cellnames = true ∧
      orderAllowed d.order e.kmin e.kmax = true ∧
      shapeOf (tdimOf cell) e.valueRank = .ok d.shape ∧
      cubeFamily cell e.family d.order = .ok e.family := by
    rintro f' hc hd ⟨e', he', hf, hr, hs, hm, hk1, hk2, hcn⟩ hcf
    obtain ⟨-, -, -, -, -, -, hreg'⟩ := table_facts _ (get?_mem he')
    simp only at hreg'
    refine ⟨e', hreg', hf.trans hd.symm, hs.trans hsob.symm, hm.trans hmap.symm, ?_, ?_, ?_, ?_⟩
    · rw [hcn]; exact cubeLike_allowed hc
    · rw [hk1, hk2, ho]; exact hord
    · rw [hr]; exact hshape
    · rw [hf]; exact hcf
  rcases cubeFamily_ok hcube with he | ⟨hc, ⟨h1, h2⟩ | ⟨h1, h2⟩ | ⟨h1, h2⟩⟩
  · exact ⟨e, hreg, he.symm, hsob.symm, hmap.symm, hcell, ho ▸ hord, hshape,
      by rw [ho, hcube, he]⟩
  · exact key "Q" hc h2 (c1 h1) (by simp [cubeFamily])
  · exact key "DQ" hc h2 (c2 h1) (by simp [cubeFamily])
  · exact key "DQ L2" hc h2 (c3 h1) (by simp [cubeFamily])

/-- **C49** (idempotence). Feeding an accepted description back in, without a form
degree as `reconstruct` does, or with any form degree unless the family is "S" (which is
both a family and the name of a family of forms), returns the same family, order, value
shape, Sobolev space, mapping and embedded degree. Only the name used for printing may
change. -/
theorem C49_idempotent {family : String} {cell : Option UCell} {order : Order}
    {k : Option Int} {d : Desc}
    (h : canonicalElementDescription family cell order k = .ok d)
    (k' : Option Int) (hk : k' = none ∨ d.family ≠ "S") :
    ∃ d', canonicalElementDescription d.family cell d.order k' = .ok d' ∧
      d.SameUpToShortName d' := by
  obtain ⟨e, hreg, hf, hs, hm, hcell, hord, hshape, hcube⟩ := canonical_entry h
  obtain ⟨s, e0, -, -, -, -, -, -, -, ho, -, -, hemb⟩ := canonical_ok h
  have hget := (registered_facts e hreg).1
  rw [← hf] at hk ⊢
  refine ⟨_, canonical_of_registered hget hk hcube hcell hord hshape, hf, rfl, rfl, hs, hm, ?_⟩
  rw [hemb, hf, ho]

/-! ## C50: cells, degrees and value shapes -/

theorem cellAllowed_iff {e : Entry} (he : e ∈ registrations) (n : CellName) :
    cellAllowed (some (.named n)) e.cellnames = true ↔ RegisteredOn e n := by
  have ht : ∀ e ∈ registrations,
      (match e.cellnames with | .text s => s == "triangle" | .names _ => true) = true := by
    decide +kernel
  have := ht e he
  unfold cellAllowed RegisteredOn
  simp only [cellnameOf]
  cases hc : e.cellnames with
  | names l => simp [CellNames.contains]
  | text s =>
    rw [hc] at this
    simp only [beq_iff_eq] at this
    subst this
    simp only [CellNames.contains]
    revert n
    intro n
    cases n <;> decide +kernel

theorem orderAllowed_iff (e : Entry) (o : Order) :
    orderAllowed o e.kmin e.kmax = true ↔ InRange e o := by
  unfold InRange
  cases o with
  | none => simp [orderAllowed, Order.parts]
  | int r =>
    cases e.kmin <;> cases e.kmax <;>
      simp [orderAllowed, Order.parts, Order.allGe, Order.allLe]
  | tuple rs =>
    cases e.kmin <;> cases e.kmax <;>
      simp [orderAllowed, Order.parts, Order.allGe, Order.allLe, List.all_eq_true] <;>
      constructor
    · rintro ⟨h1, h2⟩ z hz; exact ⟨h1 z hz, h2 z hz⟩
    · intro h; exact ⟨fun z hz => (h z hz).1, fun z hz => (h z hz).2⟩

theorem shapeOf_eq {tdim : Option Nat} {r : Nat} {shape : List Nat}
    (h : shapeOf tdim r = .ok shape) :
    r ≤ 2 ∧ (∀ n, tdim = some n → shape = List.replicate r n) ∧ (tdim = none → r = 0 ∧ shape = []) := by
  match r with
  | 0 => cases h; simp
  | 1 =>
    cases tdim with
    | none => cases h
    | some n => cases h; simp
  | 2 =>
    cases tdim with
    | none => cases h
    | some n => cases h; simp [List.replicate]
  | (m + 3) => cases h

/-- **C50** (soundness). If `canonical_element_description` accepts its arguments then
the family returned is registered, a plain cell is one of the cells it is registered
for, every component of the order lies in its degree range, the value shape has one axis
of the dimension of the cell per unit of the registered value rank, and the Sobolev space
and mapping are the registered ones. -/
theorem C50_sound {family : String} {cell : Option UCell} {order : Order} {k : Option Int}
    {d : Desc} (h : canonicalElementDescription family cell order k = .ok d) :
    ∃ e ∈ registrations, e.family = d.family ∧
      (∀ n, cell = some (.named n) → RegisteredOn e n) ∧ InRange e d.order ∧
      (∀ c, cell = some c → d.shape = List.replicate e.valueRank c.tdim) ∧
      (cell = none → e.valueRank = 0 ∧ d.shape = []) ∧
      d.sobolev = e.sobolev ∧ d.mapping = e.mapping := by
  obtain ⟨e, hreg, hf, hs, hm, hcell, hord, hshape, -⟩ := canonical_entry h
  obtain ⟨-, h1, h2⟩ := shapeOf_eq hshape
  refine ⟨e, hreg, hf, ?_, (orderAllowed_iff e _).1 hord, ?_, ?_, hs.symm, hm.symm⟩
  · rintro n rfl
    exact (cellAllowed_iff hreg n).1 hcell
  · rintro c rfl
    exact h1 _ rfl
  · rintro rfl
    exact h2 rfl

/-- **C50** (completeness). A registered family on a plain cell and a whole-number order
is accepted exactly when the cell is one of its cells and the order lies in its range;
otherwise `ValueError` is raised. -/
theorem C50_complete {e : Entry} (he : e ∈ registrations) (n : CellName) (r : Int) :
    (RegisteredOn e n ∧ InRange e (.int r) →
      ∃ d, canonicalElementDescription e.family (some (.named n)) (.int r) none = .ok d ∧
        d.order = .int r ∧ d.sobolev = e.sobolev ∧ d.mapping = e.mapping ∧
        d.shape = List.replicate e.valueRank n.tdim) ∧
    (¬ (RegisteredOn e n ∧ InRange e (.int r)) →
      canonicalElementDescription e.family (some (.named n)) (.int r) none
        = .error .valueError) := by
  obtain ⟨hget, ha⟩ := registered_facts e he
  have hrank : e.valueRank ≤ 2 := (table_facts _ (get?_mem hget)).2.2.2.2.2.1
  obtain ⟨f, hcube⟩ : ∃ f, cubeFamily (some (.named n)) e.family (.int r) = .ok f := by
    unfold cubeFamily
    split
    · split
      · exact ⟨_, rfl⟩
      · split
        · exact ⟨_, rfl⟩
        · split
          · exact ⟨_, rfl⟩
          · exact ⟨_, rfl⟩
    · exact ⟨_, rfl⟩
  have hshape : shapeOf (some n.tdim) e.valueRank = .ok (List.replicate e.valueRank n.tdim) := by
    match hr : e.valueRank, hrank with
    | 0, _ => rfl
    | 1, _ => rfl
    | 2, _ => rfl
  constructor
  · rintro ⟨h1, h2⟩
    exact ⟨_, canonical_of_registered hget (.inl rfl) hcube ((cellAllowed_iff he n).2 h1)
      ((orderAllowed_iff e _).2 h2) hshape, rfl, rfl, rfl, rfl⟩
  · intro hno
    have hc : catchFeec (tdimOf (some (.named n))) none (e.family, .int r)
        = .ok (e.family, .int r) := rfl
    unfold canonicalElementDescription describe
    simp only [hc, bind, Except.bind]
    rw [resolve_of_not_alias (s := (e.family, .int r)) ha]
    simp only [hget, hcube]
    by_cases h1 : RegisteredOn e n
    · have h2 : ¬ InRange e (.int r) := fun h => hno ⟨h1, h⟩
      rw [if_neg (by simp [(cellAllowed_iff he n).2 h1]), if_pos]
      rw [← orderAllowed_iff] at h2
      simpa using h2
    · rw [if_pos]
      rw [← cellAllowed_iff he n] at h1
      simpa using h1

/-- **C50** (unknown families). A name that is neither registered nor an alias is rejected
with `ValueError`, on every cell and for every order. -/
theorem C50_unknown {family : String} (h1 : uflElements.get? family = none)
    (h2 : aliases.get? family = none) (h3 : family ≠ "P L2" ∧ family ≠ "S L2")
    (cell : Option UCell) (order : Order) (k : Option Int) :
    canonicalElementDescription family cell order k = .error .valueError := by
  have hP : family ≠ "P" := by
    rintro rfl
    have : (aliases.get? "P").isNone = false := by decide +kernel
    rw [h2] at this
    cases this
  have hS : family ≠ "S" := by
    rintro rfl
    have : (uflElements.get? "S").isNone = false := by decide +kernel
    rw [h1] at this
    cases this
  have hc : catchFeec (tdimOf cell) k (family, order) = .ok (family, order) := by
    unfold catchFeec
    simp [hP, hS, h3.1, h3.2, bind, Except.bind]
  unfold canonicalElementDescription describe
  simp only [hc, bind, Except.bind]
  rw [resolve_of_not_alias (s := (family, order)) h2]
  simp only [h1]

/-- Cells that are products of intervals without being simplices, or products of cells. -/
def CubeLike : UCell → Prop
  | .named .quadrilateral | .named .hexahedron | .named .tesseract | .tensor _ => True
  | _ => False

/-- **C50** (cubes). On quadrilaterals, hexahedra and products of cells, the Lagrange families mean their tensor
product counterparts; on all other cells they mean themselves. -/
theorem C50_cubes {f g : String} (hf : (f, g) ∈ [("Lagrange", "Q"), ("Discontinuous Lagrange", "DQ"),
      ("Discontinuous Lagrange L2", "DQ L2")]) {c : UCell} {o : Order} {d : Desc}
    (h : canonicalElementDescription f (some c) o none = .ok d) :
    (CubeLike c → d.family = g) ∧ (¬ CubeLike c → d.family = f) := by
  obtain ⟨s, e, hs, he, hc, -⟩ := canonical_ok h
  have hx : catchFeec (tdimOf (some c)) none (f, o) = .ok (f, o) := rfl
  rw [hx] at hs
  have ha : aliases.get? f = none ∧ (uflElements.get? f).map Entry.family = some f := by
    simp only [List.mem_cons, Prod.mk.injEq, List.not_mem_nil, or_false] at hf
    rcases hf with ⟨rfl, _⟩ | ⟨rfl, _⟩ | ⟨rfl, _⟩ <;> decide +kernel
  have hr : resolve (tdimOf (some c)) none (f, o) = .ok s := hs
  rw [resolve_of_not_alias ha.1] at hr
  cases hr
  have hef : e.family = f := by
    have := ha.2
    rw [he] at this
    simpa using this
  rw [hef] at hc
  have hcl : isCubeLike (some c) = true ↔ CubeLike c := by
    rcases c with n | cs
    · cases n <;> simp [CubeLike] <;> decide
    · simp [CubeLike, isCubeLike]
  unfold cubeFamily at hc
  refine ⟨fun hl => ?_, fun hl => ?_⟩
  · rw [if_pos (hcl.2 hl)] at hc
    simp only [List.mem_cons, Prod.mk.injEq, List.not_mem_nil, or_false] at hf
    rcases hf with ⟨rfl, rfl⟩ | ⟨rfl, rfl⟩ | ⟨rfl, rfl⟩
    · simpa using hc.symm
    · cases o <;> simp at hc
      exact hc.symm
    · cases o <;> simp at hc
      exact hc.symm
  · rw [if_neg (fun h => hl (hcl.1 h))] at hc
    cases hc
    rfl

/-- **C50** (registering). Registering a family that is already registered is a `ValueError`. Otherwise the
family and its short name mean the new entry afterwards, and all other names what they meant before. -/
theorem C50_register (d : Dict String Entry) (e : Entry) :
    ((d.get? e.family).isSome → registerElement d e = .error .valueError) ∧
    (d.get? e.family = none → ∃ d', registerElement d e = .ok d' ∧ d'.get? e.family = some e ∧
      (∀ s, e.shortName = some s → d'.get? s = some e) ∧
      ∀ s, s ≠ e.family → e.shortName ≠ some s → d'.get? s = d.get? s) := by
  refine ⟨fun h => by rw [registerElement, if_pos h], fun h => ?_⟩
  rw [registerElement, h]
  simp only [Option.isSome_none, Bool.false_eq_true, if_false]
  cases hs : e.shortName with
  | none =>
    refine ⟨_, rfl, by rw [Dict.get?_set, if_pos rfl], fun s hs' => by simp at hs', fun s hne _ => ?_⟩
    rw [Dict.get?_set, if_neg (by first | exact hne | exact Ne.symm hne)]
  | some t =>
    refine ⟨_, rfl, ?_, fun s hs' => ?_, fun s hne hst => ?_⟩
    · rw [Dict.get?_set, Dict.get?_set, if_pos rfl, ite_self]
    · obtain rfl : t = s := by simpa using hs'
      rw [Dict.get?_set, if_pos rfl]
    · have : t ≠ s := fun h => hst (by rw [h])
      rw [Dict.get?_set, if_neg (by first | exact this | exact Ne.symm this), Dict.get?_set,
        if_neg (by first | exact hne | exact Ne.symm hne)]

/-! ## C51: exterior calculus notation -/

/-- **C51**. For every name of a family of differential forms, in dimension one to three
on the matching simplex or cube, for every form degree and every order from one on, the
description is accepted: the Sobolev space is the one of the de Rham complex, the value is
a scalar for the lowest and highest degree and a vector in between, the pullback is the
one of forms, the order is the given one (one less for the highest forms of a trimmed
family), and the family is registered for the cell. -/
theorem C51_complex {f : FeecName} (hf : f ∈ feecNames) {n k : Nat} (hn : 1 ≤ n) (hn3 : n ≤ 3)
    (hk : k ≤ n) {r : Int} (hr : 1 ≤ r) :
    ∃ d, canonicalElementDescription f.name (some (.named (feecCell f.onCubes n))) (.int r)
        (some k) = .ok d ∧
      d.family = f.familyOf n k ∧
      d.order = .int (f.order r n k) ∧ d.sobolev = deRham n k ∧ d.shape = formShape n k ∧
      d.mapping = formPullback (if f.l2 then "L2 Piola" else "identity") n k ∧
      ∃ e ∈ registrations, e.family = d.family ∧ RegisteredOn e (feecCell f.onCubes n) := by
  have hmem : n ∈ [1, 2, 3] := by
    have : n = 1 ∨ n = 2 ∨ n = 3 := by omega
    rcases this with rfl | rfl | rfl <;> simp
  have hc := feecCheck_all f hf n hmem k (by simp; omega)
  have htd : (feecCell f.onCubes n).tdim = n := by
    have : n = 1 ∨ n = 2 ∨ n = 3 := by omega
    cases hb : f.onCubes <;> rcases this with rfl | rfl | rfl <;> rfl
  unfold feecCheck at hc
  split at hc
  · cases hc
  · next g o hfront =>
    split at hc
    · cases hc
    · next e hget =>
      simp only [Bool.and_eq_true, decide_eq_true_eq] at hc
      obtain ⟨⟨⟨⟨⟨⟨⟨⟨ho, hcube⟩, hcell⟩, hkmin⟩, hkmax⟩, hrank⟩, hsob⟩, hmap⟩, hfam⟩ := hc
      split at hcube
      · next g' hg' =>
        have hgf : g' = e.family := by simpa using hcube
        split at hkmin
        · next m hm =>
          have hkm : m ≤ (if (f.trimmed && k == n) = true then 0 else 1) := by simpa using hkmin
          have hp := get?_mem hget
          obtain ⟨-, -, -, -, -, -, hreg⟩ := table_facts _ hp
          have hfr : front (some n) (some (k : Int)) (f.name, .int r) =
              .ok (g, .int (f.order r n k)) := by
            have := front_shift (some n) (some (k : Int)) r (f.name, .int 0)
            rw [hfront] at this
            have e1 : shiftS r (f.name, .int 0) = (f.name, .int r) := by
              simp [shiftS, Order.shift]
            rw [e1] at this
            simp only [← Bool.and_eq_true] at ho
            rw [this, ho]
            unfold FeecName.order
            cases (f.trimmed && k == n)
            · show Except.ok (g, Order.int (0 + r)) = _
              rw [Int.zero_add]; rfl
            · show Except.ok (g, Order.int (-1 + r)) = _
              rw [Int.add_comm]; rfl
          have hshape : shapeOf (some n) e.valueRank = .ok (formShape n k) := by
            rw [hrank]
            unfold formShape
            split <;> rfl
          have hord : orderAllowed (.int (f.order r n k)) e.kmin e.kmax = true := by
            rw [hm, hkmax]
            unfold FeecName.order
            revert hkm
            cases (f.trimmed && k == n) <;> intro hkm <;>
              simp [orderAllowed, Order.allGe] at hkm ⊢ <;> omega
          refine ⟨⟨g', e.shortName, .int (f.order r n k), formShape n k, e.sobolev, e.mapping,
            embeddedOf (some n) g' (.int (f.order r n k))⟩, ?_, hgf.trans hfam, rfl, hsob, rfl, hmap,
            e, hreg, hgf.symm, (cellAllowed_iff hreg _).1 hcell⟩
          unfold canonicalElementDescription describe
          simp only [tdimOf, Option.map, UCell.tdim, htd]
          unfold front at hfr
          simp only [bind, Except.bind] at hfr ⊢
          cases hcf : catchFeec (some n) (some (k : Int)) (f.name, .int r) with
          | error e => rw [hcf] at hfr; cases hfr
          | ok s =>
            rw [hcf] at hfr
            simp only at hfr ⊢
            rw [resolve_eq_resolveN _ _ 2 _ (aliasRank_le _), hfr]
            simp only [hget]
            rw [cubeFamily_int _ _ _ 0, hg']
            simp only [hcell, hord, hshape]
            simp
        · cases hkmin
      · cases hcube

/-! ## C66: synonyms -/

/-- **C66**. A synonym means the same family as the full name, on every cell and for every
order and form degree ("P" also names a family of forms and must be used without a form
degree): the descriptions are the same, or both fail in the same way. -/
theorem C66_synonyms {p : String × String} (hp : p ∈ synonyms) (c : UCell) (o : Order)
    (k : Option Int) (hk : p.1 = "P" → k = none) :
    canonicalElementDescription p.1 (some c) o k = canonicalElementDescription p.2 (some c) o k := by
  have key : ∀ p ∈ synonyms, (aliases.get? p.2 = none ∧
      p.1 ∉ ["S", "P L2", "S L2"] ∧ p.2 ∉ ["P", "S", "P L2", "S L2"] ∧
      (aliases.get? p.1 = some (.to p.2) ∨ (aliases.get? p.1 = none ∧
        uflElements.get? p.1 = uflElements.get? p.2))) := by
    decide +kernel
  obtain ⟨h1, h2, h3, h4⟩ := key p hp
  simp only [List.mem_cons, List.not_mem_nil, or_false, not_or] at h2 h3
  have hc2 : catchFeec (tdimOf (some c)) k (p.2, o) = .ok (p.2, o) := by
    unfold catchFeec
    simp [h3, bind, Except.bind]
  have hc1 : catchFeec (tdimOf (some c)) k (p.1, o) = .ok (p.1, o) := by
    unfold catchFeec
    by_cases hP : p.1 = "P"
    · simp [hk hP, bind, Except.bind]
    · simp [h2, hP, bind, Except.bind]
  unfold canonicalElementDescription
  simp only [hc1, hc2, bind, Except.bind]
  rw [resolve_of_not_alias (s := (p.2, o)) h1]
  rcases h4 with h4 | ⟨h4, h5⟩
  · have hs : aliasStep (tdimOf (some c)) k (p.1, o) = some (.ok (p.2, o)) := by
      simp [aliasStep, h4, tdimOf, applyAlias]
    have hr : resolve (tdimOf (some c)) k (p.1, o) = .ok (p.2, o) := by
      rw [resolve]
      split
      · next h => rw [hs] at h; cases h
      · next h => rw [hs] at h; cases h
      · next s' h =>
        rw [hs] at h; cases h
        rw [resolve_of_not_alias (s := (p.2, o)) h1]
    rw [hr]
  · rw [resolve_of_not_alias (s := (p.1, o)) h4]
    have hd : describe (some c) (p.1, o) = describe (some c) (p.2, o) := by
      unfold describe
      dsimp only
      rw [h5]
    exact hd

/-! ## Concrete cases and limits -/

namespace UflListCases

deriving instance DecidableEq for Except

/-- `canonical_element_description` with the loop stopped after two rounds, which the
kernel can run. -/
def canonicalFast (family : String) (cell : Option UCell) (order : Order)
    (formDegree : Option Int) : Except Err Desc := do
  let s ← catchFeec (tdimOf cell) formDegree (family, order)
  let s ← resolveN (tdimOf cell) formDegree 2 s
  describe cell s

theorem canonical_eq_fast (family : String) (cell : Option UCell) (order : Order)
    (k : Option Int) :
    canonicalElementDescription family cell order k = canonicalFast family cell order k := by
  unfold canonicalElementDescription canonicalFast
  have : ∀ s, resolve (tdimOf cell) k s = resolveN (tdimOf cell) k 2 s :=
    fun s => resolve_eq_resolveN _ _ _ _ (aliasRank_le _)
  simp only [this]

/-- "RTE" on a triangle: two rounds of the loop lead to a Nedelec element. -/
theorem trimmed_one_forms : canonicalElementDescription "P-" (some (.named .triangle)) (.int 3)
    (some 1) = .ok ⟨"Nedelec 1st kind H(curl)", some "N1curl", .int 3, [2], .hCurl,
      "covariant Piola", .int 3⟩ := by
  rw [canonical_eq_fast]; decide +kernel

/-- "CG" on a quadrilateral is "Q", printed as "CG". -/
theorem cg_quad : canonicalElementDescription "CG" (some (.named .quadrilateral)) (.int 2) none
    = .ok ⟨"Q", some "CG", .int 2, [], .h1, "identity", .int 2⟩ := by
  rw [canonical_eq_fast]; decide +kernel

/-- The element above described again: the same but for the name used for printing. -/
theorem q_quad : canonicalElementDescription "Q" (some (.named .quadrilateral)) (.int 2) none
    = .ok ⟨"Q", none, .int 2, [], .h1, "identity", .int 2⟩ := by
  rw [canonical_eq_fast]; decide +kernel

example := C49_canonical trimmed_one_forms
example := C49_idempotent trimmed_one_forms (some 1) (.inr (by decide))
example := C49_idempotent cg_quad none (.inl rfl)
example := C50_sound trimmed_one_forms

theorem dg_product : canonicalElementDescription "Discontinuous Lagrange"
    (some (.tensor [.named .triangle, .named .interval])) (.int 2) none =
    .ok ⟨"DQ", some "DG", .int 2, [], .l2, "identity", .int 2⟩ := by
  rw [canonical_eq_fast]; decide +kernel

theorem dg_triangle : canonicalElementDescription "Discontinuous Lagrange" (some (.named .triangle)) (.int 2) none =
    .ok ⟨"Discontinuous Lagrange", some "DG", .int 2, [], .l2, "identity", .int 2⟩ := by
  rw [canonical_eq_fast]; decide +kernel

example := (C50_cubes (g := "DQ") (by simp) dg_product).1 trivial
example := (C50_cubes (g := "DQ") (by simp) dg_triangle).2 (by simp [CubeLike])

example : aliasStep (some 2) (some 1) ("P-", .int 3) = some (.ok ("RTE", .int 3)) := by
  decide +kernel
example : aliasStep (some 2) (some 1) ("RTE", .int 3) =
    some (.ok ("Nedelec 1st kind H(curl)", .int 3)) := by
  decide +kernel

/-- Bell is registered on triangles in degree five only. -/
theorem bell_mem : ⟨"Bell", some "BELL", 0, .h2, "custom", some 5, some 5,
    .names ["triangle"]⟩ ∈ registrations := by decide +kernel

example := (C50_complete bell_mem .triangle 5).1
  ⟨by unfold RegisteredOn; decide, by simp [InRange, Order.parts]⟩
example := (C50_complete bell_mem .triangle 4).2
  (by rintro ⟨-, h⟩; simpa using (h 4 (by simp [Order.parts])).1 5 rfl)
example := (C50_complete bell_mem .tetrahedron 5).2
  (by rintro ⟨h, -⟩; revert h; unfold RegisteredOn; decide)
/- A family is registered once: the list again, and the first entry into nothing. -/
example := (C50_register uflElements ⟨"Bell", some "BELL", 0, .h2, "custom", some 5, some 5,
  .names ["triangle"]⟩).1 (by decide +kernel)
example := (C50_register [] ⟨"Bell", some "BELL", 0, .h2, "custom", some 5, some 5,
  .names ["triangle"]⟩).2 rfl

example := C50_unknown (family := "Lagrnage") (by decide +kernel) (by decide +kernel)
  (by decide) none .none (some 0)

example := C51_complex (f := ⟨"P-", false, true, false⟩) (by decide) (n := 3) (k := 2)
  (by decide) (by decide) (by decide) (r := 2) (by decide)
example := C51_complex (f := ⟨"S Lambda L2", true, false, true⟩) (by decide) (n := 2) (k := 2)
  (by decide) (by decide) (by decide) (r := 1) (by decide)

example := C66_synonyms (p := ("N1F", "Raviart-Thomas")) (by decide) (.named .triangle) (.int 2)
  (some 1) (by decide)
example := C66_synonyms (p := ("P", "Lagrange")) (by decide) (.named .tetrahedron) (.int 2)
  none (by decide)

/-- Argyris on a product cell. -/
theorem argyris_product : canonicalElementDescription "Argyris"
    (some (.tensor [.named .interval, .named .interval])) (.int 5) none =
    .ok ⟨"Argyris", some "ARG", .int 5, [], .h2, "custom", .int 5⟩ := by
  rw [canonical_eq_fast]; decide +kernel

/-- Forms of degree three on a vertex. -/
theorem vertex_three_forms : canonicalElementDescription "P-" (some (.named .vertex)) (.int 1)
    (some 3) = .ok ⟨"Discontinuous Lagrange", some "DG", .int 0, [], .l2, "identity",
      .int 0⟩ := by
  rw [canonical_eq_fast]; decide +kernel

end UflListCases

/-- **C49** (a limit of idempotence). "S" is a family and also the name of a family of
forms: with a form degree it means something else. -/
theorem C49_ambiguous_S :
    canonicalElementDescription "S" (some (.named .quadrilateral)) (.int 1) none ≠
    canonicalElementDescription "S" (some (.named .quadrilateral)) (.int 1) (some 1) := by
  rw [UflListCases.canonical_eq_fast, UflListCases.canonical_eq_fast]; decide +kernel

/-- **C50** (product cells are not checked). On a product cell every registered family
is accepted, here the triangular Argyris element on a product of two intervals. -/
theorem C50_product_cell_unchecked :
    ∃ d, canonicalElementDescription "Argyris"
      (some (.tensor [.named .interval, .named .interval])) (.int 5) none = .ok d ∧
      d.family = "Argyris" := by
  exact ⟨_, UflListCases.argyris_product, rfl⟩

/-- **C50** (other exceptions). Rejection is not always a `ValueError`: forms on a cell of
dimension four raise `IndexError`, a discontinuous Lagrange element without a degree on a
quadrilateral raises `TypeError`. -/
theorem C50_other_exceptions :
    canonicalElementDescription "P" (some (.named .pentatope)) (.int 1) (some 0)
      = .error .indexError ∧
    canonicalElementDescription "DG" (some (.named .quadrilateral)) .none none
      = .error .typeError := by
  rw [UflListCases.canonical_eq_fast, UflListCases.canonical_eq_fast]
  exact ⟨by decide +kernel, by decide +kernel⟩

/-- **C51** (outside dimension one to three). On a vertex the tables are indexed from the
end: "3-forms" on a vertex are accepted, as discontinuous elements of degree `r - 1`. -/
theorem C51_vertex_wraps :
    ∃ d, canonicalElementDescription "P-" (some (.named .vertex)) (.int 1) (some 3) = .ok d ∧
      d.family = "Discontinuous Lagrange" ∧ d.order = .int 0 := by
  exact ⟨_, UflListCases.vertex_three_forms, rfl, rfl⟩

end FInAT.Props
