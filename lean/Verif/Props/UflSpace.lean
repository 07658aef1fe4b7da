import Verif.Model.Ufl.Space
import Verif.Props.UflTree
import Verif.Props.UflProduct

/-!
# C89: Sobolev spaces of product elements, axis by axis
-/

namespace FInAT.Ufl

/-! ### Specification -/

/-- The number of axes of the factors before factor `k`: axis `j` of factor `k` is axis `axesBefore k + j` of the
product. -/
def axesBefore (subs : List UElem) (k : Nat) : Nat :=
  ((subs.take k).map fun e => (tdimOf e.cell).getD 0).sum

/-- The spaces of square integrable functions with all, one, two, no derivatives: those that a directional space
can have along an axis. -/
def Isotropic (s : Sobolev) : Prop := s = .l2 ∨ s = .h1 ∨ s = .h2 ∨ s = .hInf

/-- `t` contains `s`. -/
def Sobolev.Within (s t : Sobolev) : Prop := t = s ∨ t ∈ s.parents

/-- A space is, axis by axis, the directional space with the given orders. -/
def Space.Agrees (s : Space) (orders : List (Option Nat)) : Prop :=
  (∀ j < orders.length, s.axis j = (Space.dir orders).axis j) ∧
    ∀ q, s = .dir q → q.length = orders.length

/-! ### Lemmas -/

theorem Space.agrees_of_eq {s : Space} {p : List (Option Nat)} (h : s.eq (.dir p) = true) : s.Agrees p := by
  cases s with
  | dir q =>
    have : q = p := by simpa [Space.eq] using h
    subst this
    exact ⟨fun _ _ => rfl, fun q' hq => by cases hq; rfl⟩
  | plain t =>
    refine ⟨fun j hj => ?_, fun q hq => by cases hq⟩
    have h : ∀ o ∈ p, spaceOfOrder o = some t := by simpa [Space.eq] using h
    show some t = (p[j]?).bind spaceOfOrder
    rw [List.getElem?_eq_getElem hj]
    exact (h _ (List.getElem_mem hj)).symm

theorem Within.trans {a b c : Sobolev} (h : a.Within b) (h' : b.Within c) : a.Within c := by
  revert h h'
  cases a <;> cases b <;> cases c <;> simp [Sobolev.Within, Sobolev.parents]

theorem Space.eq_plain {sp : Space} {s : Sobolev} (h : sp.eq (.plain s) = true) {j : Nat} {u : Sobolev}
    (hu : sp.axis j = some u) : u = s := by
  cases sp with
  | plain t =>
    simp only [Space.eq, beq_iff_eq] at h
    simp only [Space.axis, Option.some.injEq] at hu
    rw [← hu, h]
  | dir p =>
    simp only [Space.eq, List.all_eq_true, beq_iff_eq] at h
    simp only [Space.axis] at hu
    cases hp : p[j]? with
    | none => rw [hp] at hu; cases hu
    | some o =>
      rw [hp] at hu
      have := h o (List.mem_of_getElem? hp)
      rw [show spaceOfOrder o = some u from hu] at this
      exact Option.some.inj this

theorem order_axis {s : Space} {j : Nat} {u : Sobolev} (hu : s.axis j = some u) :
    ∃ t, spaceOfOrder s.order = some t ∧ u.Within t ∧ (s = .plain u → Isotropic u → t = u) := by
  cases s with
  | plain v =>
    simp only [Space.axis, Option.some.injEq] at hu
    subst hu
    cases v <;> simp [Space.order, spaceOfOrder, Sobolev.Within, Sobolev.parents, Isotropic]
  | dir p =>
    refine ⟨.l2, rfl, ?_, fun h => by cases h⟩
    cases u <;> simp [Sobolev.Within, Sobolev.parents]

theorem collect_axis : ∀ {fs : List (Space × Option Nat)} {os : List (Option Nat)}, collectOrders fs = some os →
    ∀ {k : Nat} {s : Space} {d : Nat}, fs[k]? = some (s, some d) → ∀ {j : Nat}, j < d →
      os[((fs.take k).map fun p => p.2.getD 0).sum + j]? = some s.order
  | [], os, h, k, s, d, hk, j, hj => by simp at hk
  | (t, none) :: fs, os, h, k, s, d, hk, j, hj => by cases h
  | (t, some e) :: fs, os, h, k, s, d, hk, j, hj => by
    simp only [collectOrders] at h
    cases hr : collectOrders fs with
    | none => rw [hr] at h; cases h
    | some rs =>
      rw [hr] at h
      cases h
      cases k with
      | zero =>
        simp only [List.getElem?_cons_zero, Option.some.injEq, Prod.mk.injEq] at hk
        obtain ⟨rfl, rfl⟩ := hk
        simp only [List.take_zero, List.map_nil, List.sum_nil, Nat.zero_add]
        rw [List.getElem?_append_left (by simpa using hj)]
        simp [hj]
      | succ k =>
        rw [List.getElem?_cons_succ] at hk
        have ih := collect_axis hr hk hj
        simp only [List.take_succ_cons, List.map_cons, List.sum_cons, Option.getD_some]
        rw [List.getElem?_append_right (by simp; omega), List.length_replicate,
          show e + ((fs.take k).map fun p => p.2.getD 0).sum + j - e =
            ((fs.take k).map fun p => p.2.getD 0).sum + j by omega]
        exact ih

theorem collect_length : ∀ {fs : List (Space × Option Nat)} {os : List (Option Nat)}, collectOrders fs = some os →
    os.length = (fs.map fun p => p.2.getD 0).sum
  | [], os, h => by cases h; rfl
  | (t, none) :: fs, os, h => by cases h
  | (t, some e) :: fs, os, h => by
    simp only [collectOrders] at h
    cases hr : collectOrders fs with
    | none => rw [hr] at h; cases h
    | some rs =>
      rw [hr] at h
      cases h
      simp [collect_length hr]

theorem factorSpaces_get : ∀ {subs : List UElem} {fs : List (Space × Option Nat)}, factorSpaces subs = some fs →
    fs.map Prod.snd = subs.map (fun e => tdimOf e.cell) ∧
      ∀ {k : Nat} {e : UElem}, subs[k]? = some e → ∃ s, space e = some s ∧ fs[k]? = some (s, tdimOf e.cell)
  | [], fs, h => by cases h; simp
  | e :: es, fs, h => by
    rw [factorSpaces] at h
    cases hs : space e with
    | none => rw [hs] at h; cases h
    | some s =>
      cases hr : factorSpaces es with
      | none => rw [hs, hr] at h; cases h
      | some rs =>
        rw [hs, hr] at h
        cases h
        obtain ⟨h1, h2⟩ := factorSpaces_get hr
        refine ⟨by simp [h1], ?_⟩
        intro k e' hk
        cases k with
        | zero => cases hk; exact ⟨s, hs, rfl⟩
        | succ k => exact h2 (by simpa using hk)

theorem axesBefore_eq {subs : List UElem} {fs : List (Space × Option Nat)}
    (h : fs.map Prod.snd = subs.map fun e => tdimOf e.cell) (k : Nat) :
    axesBefore subs k = ((fs.take k).map fun p => p.2.getD 0).sum := by
  have : (fs.take k).map (fun p => p.2.getD 0) = ((fs.map Prod.snd).take k).map fun d => d.getD 0 := by
    simp [← List.map_take]
  rw [this, h, axesBefore, ← List.map_take, List.map_map]
  rfl

mutual
theorem space_of_sobolev : ∀ (e : UElem) {s : Sobolev}, sobolev e = some s → space e = some (.plain s)
  | .fe .., s, h => by rw [sobolev] at h; cases h; rw [space]
  | .mixed b subs, s, h => by
    rw [sobolev] at h
    cases hs : sobolevs subs with
    | none => rw [hs] at h; cases h
    | some ss =>
      rw [hs] at h
      rw [space, (spaces_of_sobolevs subs hs).1]
      have hm : (ss.map Space.plain).mapM Space.plain? = some ss := mapM_plain ss
      show ((ss.map Space.plain).mapM Space.plain?).bind _ = _
      rw [hm]
      show ((mixedSobolev ss).toOption).bind _ = _
      rw [show (mixedSobolev ss).toOption = some s from h]
      rfl
  | .vector b e dim v, s, h => by
    rw [sobolev] at h
    rw [space]
    by_cases hd : dim = 0
    · rw [if_pos hd] at h ⊢
      exact absurd h (by rw [show (some ([] : List Sobolev) >>= fun a => (mixedSobolev a).toOption) = none from rfl]; simp)
    · rw [if_neg hd] at h ⊢
      cases hs : sobolev e with
      | none => rw [hs] at h; cases h
      | some t =>
        rw [hs] at h
        rw [space_of_sobolev e hs]
        show ((mixedSobolev (List.replicate dim t)).toOption).bind _ = _
        rw [show (mixedSobolev (List.replicate dim t)).toOption = some s from h]
        rfl
  | .tensor b e sh sy nu count m v, s, h => by
    rw [sobolev] at h
    rw [space]
    by_cases hd : count = 0
    · rw [if_pos hd] at h ⊢
      exact absurd h (by rw [show (some ([] : List Sobolev) >>= fun a => (mixedSobolev a).toOption) = none from rfl]; simp)
    · rw [if_neg hd] at h ⊢
      cases hs : sobolev e with
      | none => rw [hs] at h; cases h
      | some t =>
        rw [hs] at h
        rw [space_of_sobolev e hs]
        show ((mixedSobolev (List.replicate count t)).toOption).bind _ = _
        rw [show (mixedSobolev (List.replicate count t)).toOption = some s from h]
        rfl
  | .product b subs, s, h => by
    rw [sobolev] at h
    cases hs : sobolevs subs with
    | none => rw [hs] at h; cases h
    | some ss =>
      rw [hs] at h
      obtain ⟨-, fs, hf, hm⟩ := spaces_of_sobolevs subs hs
      rw [space, hf]
      show productSpace fs = _
      have h : productSobolev ss = some s := h
      cases ss with
      | nil => cases h
      | cons t ts =>
        cases fs with
        | nil => simp at hm
        | cons f rest =>
          obtain ⟨f1, f2⟩ := f
          simp only [List.map_cons, List.cons.injEq] at hm
          obtain ⟨rfl, hm⟩ := hm
          simp only [productSobolev] at h
          split at h
          · rename_i hall
            cases h
            simp only [productSpace]
            rw [if_pos]
            rw [List.all_eq_true] at hall ⊢
            intro p hp
            have : p.1 ∈ ts.map Space.plain := by rw [← hm]; exact List.mem_map_of_mem hp
            obtain ⟨u, hu, hpu⟩ := List.mem_map.1 this
            rw [← hpu]
            simpa [Space.eq] using hall u hu
          · cases h
  | .enriched b n subs, s, h => by
    rw [sobolev] at h
    cases hs : sobolevs subs with
    | none => rw [hs] at h; cases h
    | some ss =>
      rw [hs] at h
      rw [space, (spaces_of_sobolevs subs hs).1]
      show ((ss.map Space.plain).mapM Space.plain?).bind _ = _
      rw [mapM_plain ss]
      show ((enrichedSobolev ss).toOption).bind _ = _
      rw [show (enrichedSobolev ss).toOption = some s from h]
      rfl
  | .hdiv .., s, h => by rw [sobolev] at h; cases h; rw [space]
  | .hcurl .., s, h => by rw [sobolev] at h; cases h; rw [space]
  | .withMapping e m, s, h => by
    rw [sobolev] at h
    rw [space]
    split at h
    · rename_i hm
      rw [if_pos hm]
      exact space_of_sobolev e h
    · rename_i hm
      rw [if_neg hm]
      cases h
      rfl
  | .restricted b e d, s, h => by
    rw [sobolev] at h
    rw [space]
    split at h
    · rename_i hm
      rw [if_pos hm]
      cases h
      rfl
    · rename_i hm
      rw [if_neg hm]
      exact space_of_sobolev e h
  | .broken .., s, h => by rw [sobolev] at h; cases h; rw [space]
theorem spaces_of_sobolevs : ∀ (es : List UElem) {ss : List Sobolev}, sobolevs es = some ss →
    spaces es = some (ss.map Space.plain) ∧
      ∃ fs, factorSpaces es = some fs ∧ fs.map Prod.fst = ss.map Space.plain
  | [], ss, h => by
    rw [sobolevs] at h
    cases h
    exact ⟨by rw [spaces]; rfl, [], by rw [factorSpaces], rfl⟩
  | e :: es, ss, h => by
    rw [sobolevs] at h
    cases hs : sobolev e with
    | none => rw [hs] at h; cases h
    | some s =>
      cases hr : sobolevs es with
      | none => rw [hs, hr] at h; cases h
      | some ts =>
        rw [hs, hr] at h
        cases h
        obtain ⟨h1, fs, h2, h3⟩ := spaces_of_sobolevs es hr
        refine ⟨?_, (.plain s, tdimOf e.cell) :: fs, ?_, ?_⟩
        · rw [spaces, space_of_sobolev e hs, h1]
          rfl
        · rw [factorSpaces, space_of_sobolev e hs, h2]
          rfl
        · simp [h3]
theorem mapM_plain : ∀ ss : List Sobolev, (ss.map Space.plain).mapM Space.plain? = some ss
  | [] => rfl
  | s :: ss => by
    rw [List.map_cons, List.mapM_cons, mapM_plain ss]
    rfl
end

end FInAT.Ufl

namespace FInAT.Props

open Ufl Ufl.UElem

/-- When the first factor gives the space and the others equal it then all factors agree with it. -/
theorem agrees_of_all {subs : List UElem} {p : List (Option Nat)} {d0 : Option Nat}
    {rest : List (Space × Option Nat)} (hf : factorSpaces subs = some ((.dir p, d0) :: rest))
    (hall : ∀ q ∈ rest, q.1.eq (.dir p) = true) :
    ¬ ∃ f ∈ subs, ∃ t, space f = some t ∧ ¬ t.Agrees p := by
  rintro ⟨f, hm, t, ht, hn⟩
  obtain ⟨i, hi⟩ := List.mem_iff_getElem?.1 hm
  obtain ⟨t', ht', hg⟩ := (factorSpaces_get hf).2 hi
  rw [ht] at ht'
  cases ht'
  refine hn (Space.agrees_of_eq ?_)
  cases i with
  | zero => cases hg; simp [Space.eq]
  | succ i =>
    rw [List.getElem?_cons_succ] at hg
    exact hall _ (List.mem_of_getElem? hg)

/-- **C89** (partial: the space may be lost). Axis `j` of factor `k` of a product is axis `axesBefore k + j` of
its space, and along it the product has the space of the factor or one that contains it; it has exactly the space
of the factor when that is one and the same square integrable space along all axes of the factor. Excluded are
products all of whose factors have the same directional space, see `C89_too_few_axes`. -/
theorem C89_axes_partial {b : Base} {subs : List UElem} {sp : Space} (h : space (.product b subs) = some sp)
    {k : Nat} {e : UElem} (hk : subs[k]? = some e) {s : Space} (hs : space e = some s)
    (hex : ∀ p, sp = .dir p → ∃ f ∈ subs, ∃ t, space f = some t ∧ ¬ t.Agrees p)
    {d : Nat} (hd : tdimOf e.cell = some d) {j : Nat} (hj : j < d) {u : Sobolev} (hu : s.axis j = some u) :
    ∃ t, sp.axis (axesBefore subs k + j) = some t ∧ u.Within t ∧ (s = .plain u → Isotropic u → t = u) := by
  rw [space] at h
  cases hf : factorSpaces subs with
  | none => rw [hf] at h; cases h
  | some fs =>
    rw [hf] at h
    have h : productSpace fs = some sp := h
    obtain ⟨h1, h2⟩ := factorSpaces_get hf
    obtain ⟨s', hs', hfk⟩ := h2 hk
    rw [hs] at hs'
    cases hs'
    rw [hd] at hfk
    cases fs with
    | nil => cases h
    | cons f rest =>
      obtain ⟨s0, d0⟩ := f
      rw [productSpace] at h
      split at h
      · rename_i hall
        cases h
        have hall : ∀ p ∈ rest, p.1.eq sp = true := by simpa using hall
        cases sp with
        | dir p => exact absurd (hex p rfl) (agrees_of_all hf hall)
        | plain v =>
          refine ⟨v, rfl, ?_⟩
          have : u = v := by
            cases k with
            | zero =>
              cases hfk
              simpa [Space.axis] using hu.symm
            | succ k =>
              rw [List.getElem?_cons_succ] at hfk
              exact Space.eq_plain (hall _ (List.mem_of_getElem? hfk)) hu
          exact ⟨.inl this.symm, fun _ _ => this.symm⟩
      · cases hc : collectOrders ((s0, d0) :: rest) with
        | none => rw [hc] at h; cases h
        | some os =>
          rw [hc] at h
          cases h
          have hget := collect_axis hc hfk hj
          obtain ⟨t, h3, h4, h5⟩ := order_axis hu
          refine ⟨t, ?_, h4, h5⟩
          rw [axesBefore_eq h1]
          show (os[_]?).bind spaceOfOrder = _
          rw [hget]
          exact h3

/-- **C89** The space has as many axes as the cells of the factors together, when it is a directional space that
not all of the factors have. -/
theorem C89_count {b : Base} {subs : List UElem} {p : List (Option Nat)}
    (h : space (.product b subs) = some (.dir p)) (hex : ∃ f ∈ subs, ∃ t, space f = some t ∧ ¬ t.Agrees p) :
    p.length = axesBefore subs subs.length := by
  rw [space] at h
  cases hf : factorSpaces subs with
  | none => rw [hf] at h; cases h
  | some fs =>
    rw [hf] at h
    have h : productSpace fs = some (.dir p) := h
    obtain ⟨h1, h2⟩ := factorSpaces_get hf
    have hlen : fs.length = subs.length := by simpa using congrArg List.length h1
    cases fs with
    | nil => cases h
    | cons f rest =>
      obtain ⟨s0, d0⟩ := f
      rw [productSpace] at h
      split at h
      · rename_i hall
        cases h
        exact absurd hex (agrees_of_all hf (by simpa using hall))
      · cases hc : collectOrders ((s0, d0) :: rest) with
        | none => rw [hc] at h; cases h
        | some os =>
          rw [hc] at h
          cases h
          rw [axesBefore_eq h1, ← hlen, List.take_length]
          exact collect_length hc

/-- **C89** A product of factors with one and the same space has that space. -/
theorem C89_same {b : Base} {subs : List UElem} (hne : subs ≠ []) {s : Sobolev}
    (h : ∀ e ∈ subs, space e = some (.plain s)) : space (.product b subs) = some (.plain s) := by
  have hf : ∀ es : List UElem, (∀ e ∈ es, space e = some (.plain s)) →
      factorSpaces es = some (es.map fun e => (.plain s, tdimOf e.cell)) := by
    intro es
    induction es with
    | nil => intro _; rw [factorSpaces]; rfl
    | cons e es ih =>
      intro he
      rw [factorSpaces, he e (by simp), ih fun e' h' => he e' (by simp [h'])]
      rfl
  rw [space, hf subs h]
  cases subs with
  | nil => exact absurd rfl hne
  | cons e es =>
    rw [Option.bind_eq_bind, Option.bind_some, List.map_cons, productSpace, if_pos]
    simp [Space.eq]

/-- **C89** A directional space is in a space other than `L2` exactly when it is that space along every axis. -/
theorem C89_inside {p : List (Option Nat)} {H : Sobolev} (hH : H ≠ .l2) :
    (Space.dir p).inside H = true ↔ ∀ j < p.length, (Space.dir p).axis j = some H := by
  simp only [Space.inside, Space.eq, Bool.or_eq_true, beq_iff_eq, hH, or_false, List.all_eq_true]
  constructor
  · intro h j hj
    show (p[j]?).bind spaceOfOrder = _
    rw [List.getElem?_eq_getElem hj]
    exact h _ (List.getElem_mem hj)
  · intro h o ho
    obtain ⟨j, hj, rfl⟩ := List.getElem_of_mem ho
    have := h j hj
    rw [show (Space.dir p).axis j = (p[j]?).bind spaceOfOrder from rfl, List.getElem?_eq_getElem hj] at this
    exact this

/-- **C89** When a product is recognised to be in a space then each of its factors is in that space along each of
its axes. Excluded are products all of whose factors have the same directional space. -/
theorem C89_sound {b : Base} {subs : List UElem} {sp : Space} (h : space (.product b subs) = some sp)
    (hex : ∀ p, sp = .dir p → ∃ f ∈ subs, ∃ t, space f = some t ∧ ¬ t.Agrees p) {H : Sobolev}
    (hH : sp.inside H = true) {k : Nat} {e : UElem} (hk : subs[k]? = some e) {s : Space} (hs : space e = some s)
    {d : Nat} (hd : tdimOf e.cell = some d) {j : Nat} (hj : j < d) {u : Sobolev} (hu : s.axis j = some u) :
    u.Within H := by
  obtain ⟨t, h1, h2, -⟩ := C89_axes_partial h hk hs hex hd hj hu
  cases sp with
  | plain v =>
    cases h1
    have : t = H ∨ H ∈ t.parents := by simpa [Space.inside, Space.eq] using hH
    exact Within.trans h2 (this.imp Eq.symm id)
  | dir p =>
    by_cases hl : H = .l2
    · subst hl
      cases u <;> simp [Sobolev.Within, Sobolev.parents]
    · have hlt : axesBefore subs k + j < p.length := by
        by_contra hge
        rw [show (Space.dir p).axis (axesBefore subs k + j) = (p[axesBefore subs k + j]?).bind spaceOfOrder from rfl,
          List.getElem?_eq_none (by omega)] at h1
        cases h1
      rw [(C89_inside hl).1 hH _ hlt] at h1
      cases h1
      exact h2

/-- **C89** The spaces that are not directional are those of the smaller model. -/
theorem C89_consistent {e : UElem} {s : Sobolev} (h : sobolev e = some s) : space e = some (.plain s) :=
  space_of_sobolev e h

namespace UflSpaceCases

open UflListCases

/-- A continuous and a discontinuous element on the interval, an Argyris element on the triangle. -/
def cg : UElem := .fe ⟨"Lagrange", some (.named .interval), .int 1, none, []⟩ (.int 1) .h1 "identity" none (.int 1)
@[inherit_doc cg] def dg : UElem :=
  .fe ⟨"Discontinuous Lagrange", some (.named .interval), .int 1, none, []⟩ (.int 1) .l2 "identity" none (.int 1)
@[inherit_doc cg] def arg : UElem :=
  .fe ⟨"Argyris", some (.named .triangle), .int 5, none, []⟩ (.int 5) .h2 "custom" none (.int 5)

theorem cg_built : Built cg := by
  have h : canonicalElementDescription "CG" (some (.named .interval)) (.int 1) none
      = .ok ⟨"Lagrange", some "CG", .int 1, [], .h1, "identity", .int 1⟩ := by
    rw [canonical_eq_fast]; decide +kernel
  refine .fe (f := "CG") (o := .int 1) (k := none) (q := none) (v := none) (c := some (.named .interval)) ?_
  rw [newFe, newFeOn, mkFe, h]
  rfl

theorem dg_built : Built dg := by
  have h : canonicalElementDescription "DG" (some (.named .interval)) (.int 1) none
      = .ok ⟨"Discontinuous Lagrange", some "DG", .int 1, [], .l2, "identity", .int 1⟩ := by
    rw [canonical_eq_fast]; decide +kernel
  refine .fe (f := "DG") (o := .int 1) (k := none) (q := none) (v := none) (c := some (.named .interval)) ?_
  rw [newFe, newFeOn, mkFe, h]
  rfl

theorem arg_built : Built arg := by
  have h : canonicalElementDescription "ARG" (some (.named .triangle)) (.int 5) none
      = .ok ⟨"Argyris", some "ARG", .int 5, [], .h2, "custom", .int 5⟩ := by
    rw [canonical_eq_fast]; decide +kernel
  refine .fe (f := "ARG") (o := .int 5) (k := none) (q := none) (v := none) (c := some (.named .triangle)) ?_
  rw [newFe, newFeOn, mkFe, h]
  rfl

/-- Their products: continuous along the first axis only, a product of that with a discontinuous element, a
product of two of them, and Argyris on the triangle times continuous along the third axis. -/
def cd : UElem := .product ⟨"TensorProductElement", some (.tensor [.named .interval, .named .interval]),
  .tuple [.int 1, .int 1], none, []⟩ [cg, dg]
@[inherit_doc cd] def cdd : UElem := .product ⟨"TensorProductElement",
  some (.tensor [.tensor [.named .interval, .named .interval], .named .interval]),
  .tuple [.tuple [.int 1, .int 1], .int 1], none, []⟩ [cd, dg]
@[inherit_doc cd] def cdcd : UElem := .product ⟨"TensorProductElement",
  some (.tensor [.tensor [.named .interval, .named .interval], .tensor [.named .interval, .named .interval]]),
  .tuple [.tuple [.int 1, .int 1], .tuple [.int 1, .int 1]], none, []⟩ [cd, cd]
@[inherit_doc cd] def ac : UElem := .product ⟨"TensorProductElement",
  some (.tensor [.named .triangle, .named .interval]), .tuple [.int 5, .int 1], none, []⟩ [arg, cg]

theorem cd_built : Built cd :=
  .product (subs := [cg, dg]) (c := none) (by simpa using ⟨cg_built, dg_built⟩) (by rfl)
theorem cdd_built : Built cdd :=
  .product (subs := [cd, dg]) (c := none) (by simpa using ⟨cd_built, dg_built⟩) (by rfl)
theorem cdcd_built : Built cdcd :=
  .product (subs := [cd, cd]) (c := none) (by simpa using cd_built) (by rfl)
theorem ac_built : Built ac :=
  .product (subs := [arg, cg]) (c := none) (by simpa using ⟨arg_built, cg_built⟩) (by rfl)

/-- `C89_axes_partial` applies to the third axis of the product with Argyris, which is `H1`. -/
example : ∃ t, (Space.dir [some 2, some 2, some 1]).axis 2 = some t ∧ Sobolev.Within .h1 t ∧
    (Space.plain .h1 = .plain .h1 → Isotropic .h1 → t = .h1) :=
  C89_axes_partial (b := ac.base) (subs := [arg, cg]) (k := 1) (e := cg) (d := 1) (j := 0) (by decide +kernel) rfl
    (s := .plain .h1) (by rfl) (by intro p hp; cases hp; exact ⟨cg, by simp, .plain .h1, by rfl, fun h => absurd (h.1 0 (by decide)) (by decide)⟩)
    rfl (by decide) rfl

/-- `C89_count` applies to it too. -/
example : axesBefore [arg, cg] 2 = 3 :=
  (C89_count (b := ac.base) (subs := [arg, cg]) (p := [some 2, some 2, some 1]) (by decide +kernel)
    ⟨cg, by simp, .plain .h1, by rfl, fun h => absurd (h.1 0 (by decide)) (by decide)⟩).symm

/-- `C89_axes_partial` and `C89_count` apply to a product of two factors with different directional spaces: the
orders of both are forgotten, the number of axes is right. -/
example : ∃ t, (Space.dir [some 0, some 0, some 0, some 0]).axis 3 = some t ∧ Sobolev.Within .h1 t ∧
    (Space.dir [some 0, some 1] = .plain .h1 → Isotropic .h1 → t = .h1) :=
  C89_axes_partial (b := cdcd.base) (subs := [cd, .product cd.base [dg, cg]]) (k := 1)
    (e := .product cd.base [dg, cg]) (d := 2) (j := 1) (by decide +kernel) rfl (s := .dir [some 0, some 1])
    (by decide +kernel) (by
      intro p hp
      cases hp
      exact ⟨cd, by simp, .dir [some 1, some 0], by decide +kernel, fun h => absurd (h.1 0 (by decide)) (by decide)⟩)
    rfl (by decide) rfl
example : axesBefore [cd, .product cd.base [dg, cg]] 2 = 4 :=
  (C89_count (b := cdcd.base) (subs := [cd, .product cd.base [dg, cg]]) (p := [some 0, some 0, some 0, some 0])
    (by decide +kernel)
    ⟨cd, by simp, .dir [some 1, some 0], by decide +kernel, fun h => absurd (h.1 0 (by decide)) (by decide)⟩).symm

/-- `C89_same` applies to two continuous factors, `C89_sound` to their product. -/
example : space (.product cd.base [cg, cg]) = some (.plain .h1) := C89_same (by simp) (by simp [cg, space])
example : Sobolev.Within .h1 .l2 :=
  C89_sound (b := cd.base) (subs := [cg, dg]) (sp := .dir [some 1, some 0]) (H := .l2) (k := 0) (e := cg) (j := 0)
    (d := 1) (s := .plain .h1) (by decide +kernel) 
    (by intro p hp; cases hp; exact ⟨cg, by simp, .plain .h1, by rfl, fun h => absurd (h.1 1 (by decide)) (by decide)⟩) (by decide)
    rfl rfl rfl (by decide) rfl

/-- `C89_consistent` applies to a product of equal factors. -/
example : space (.product cd.base [cg, cg]) = some (.plain .h1) := C89_consistent (by rfl)

end UflSpaceCases

open UflSpaceCases in
/-- **C89** (violated). Nesting a product in a product loses its space: the element continuous along the first
axis only has `H1` along that axis, but its product with a discontinuous element has `L2` there. The same element
given as a product of three factors has `H1` along it. -/
theorem C89_inner_lost : Built cd ∧ Built cdd ∧
    (space cd >>= (·.axis 0)) = some .h1 ∧ (space cdd >>= (·.axis 0)) = some .l2 ∧
    (space (.product cdd.base [cg, dg, dg]) >>= (·.axis 0)) = some .h1 :=
  ⟨cd_built, cdd_built, by decide +kernel, by decide +kernel, by decide +kernel⟩

open UflSpaceCases in
/-- **C89** (violated). The product of two equal products of different factors is said to have the space of its
first factor, which has no third axis, although the element has four. -/
theorem C89_too_few_axes : Built cdcd ∧ axesBefore [cd, cd] 2 = 4 ∧
    space cdcd = some (.dir [some 1, some 0]) ∧ (space cdcd >>= (·.axis 2)) = none :=
  ⟨cdcd_built, by decide +kernel, by decide +kernel, by decide +kernel⟩

open UflSpaceCases in
/-- **C89** (violated). A product of an element with two derivatives and one with a derivative has a derivative
along every axis, but it is not recognised to be in `H1`, although every factor is. -/
theorem C89_h1_missed : Built ac ∧ (∀ e ∈ [arg, cg], ∃ s, space e = some s ∧ s.inside .h1 = true) ∧
    ∃ sp, space ac = some sp ∧ sp.inside .h1 = false :=
  ⟨ac_built, by
    intro e he
    simp only [List.mem_cons, List.not_mem_nil, or_false] at he
    rcases he with rfl | rfl
    · exact ⟨.plain .h2, by decide +kernel, by decide⟩
    · exact ⟨.plain .h1, by decide +kernel, by decide⟩,
  .dir [some 2, some 2, some 1], by decide +kernel, by decide⟩

end FInAT.Props
