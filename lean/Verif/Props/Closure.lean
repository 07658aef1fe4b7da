import Verif.Props.Dofs
import Verif.Model.Stress

/-!
# C69: the closure dofs an element returns
-/

set_option linter.unusedSectionVars false

namespace FInAT.Props

open FInAT FInAT.Spec

/-- The FIAT element whose closure is returned: the leaf itself, also inside mixed sub-elements and
H(div)/H(curl) wrappers. -/
def closureLeaf : Elem → Option Leaf
  | .leaf l => some l
  | .mixedSub e _ _ => closureLeaf e
  | .hdiv w => closureLeaf w
  | .hcurl w => closureLeaf w
  | _ => none

/-- What C69 asks of `entity_closure_dofs()`: it lists, for every entity, sorted and without
repetitions, the dofs `entity_dofs()` has on the sub-entities. -/
def ClosureOf (subs : EntityMap (List (Dim × Nat))) (d cl : EntityDofs) : Prop :=
  cl.keys = subs.keys ∧
  ∀ dim ents ent l, subs.get? dim = some ents → ents.get? ent = some l →
    (dofsOn cl dim ent).Pairwise (· < ·) ∧ ∀ v, v ∈ dofsOn cl dim ent ↔ ∃ x ∈ l, v ∈ dofsOn d x.1 x.2

/-- The returned closure is computed from `entity_dofs()` when FIAT's table is the element's. -/
theorem closureDofs_eq (fiat : Leaf → EntityDofs) (subs : Cell → EntityMap (List (Dim × Nat))) :
    ∀ (e : Elem) (c : Cell) (d : EntityDofs), e.cell = .ok c → e.entityDofs = .ok d →
      (∀ l, closureLeaf e = some l → fiat l = l.dofs) →
      closureDofs fiat subs e = entityClosureDofs (subs c) d := by
  intro e
  induction e using closureDofs.induct with
  | case1 l =>
    intro c d hc hd h
    simp only [Elem.cell, Except.ok.injEq] at hc
    simp only [Elem.entityDofs, Except.ok.injEq] at hd
    rw [closureDofs, h l rfl, hc, hd]
  | case2 e _ _ ih =>
    intro c d hc hd h
    rw [closureDofs]
    exact ih c d (by simpa [Elem.cell] using hc) (by simpa [Elem.entityDofs] using hd) h
  | case3 e ih =>
    intro c d hc hd h
    rw [closureDofs]
    exact ih c d (by simpa [Elem.cell] using hc) (by simpa [Elem.entityDofs] using hd) h
  | case4 e ih =>
    intro c d hc hd h
    rw [closureDofs]
    exact ih c d (by simpa [Elem.cell] using hc) (by simpa [Elem.entityDofs] using hd) h
  | case5 e h1 h2 h3 h4 =>
    intro c d hc hd h
    rw [closureDofs.eq_5 _ _ _ h1 h2 h3 h4, hc, hd]
    rfl

/-- **C69** (partial: an element backed by a FIAT element with further, constrained dofs returns the
closure of the FIAT element, see `C69_constrained`): on every element tree `entity_closure_dofs()`
lists for every entity the dofs of `entity_dofs()` on its sub-entities, provided the FIAT element
behind the tree, if there is one, has the same dofs. -/
theorem C69_closure_partial (fiat : Leaf → EntityDofs) (subs : Cell → EntityMap (List (Dim × Nat)))
    (e : Elem) (c : Cell) (hg : Good e) (hc : e.cell = .ok c) (hs : SubEntitiesOK (subs c) c.topology)
    (h : ∀ l, closureLeaf e = some l → fiat l = l.dofs) :
    ∃ d cl, e.entityDofs = .ok d ∧ closureDofs fiat subs e = .ok cl ∧ ClosureOf (subs c) d cl := by
  obtain ⟨d, cl, hd, hcl, hk, hh⟩ := C08_closure_dofs e c hg hc (subs c) hs
  exact ⟨d, cl, hd, (closureDofs_eq fiat subs e c d hc hd h).trans hcl, hk, hh⟩

/-- **C69**, elements with constrained dofs: if the FIAT element has `N` dofs, more than the element's
`space_dimension()`, then `entity_closure_dofs()` of the cell lists all `N`, so it is not the closure of
`entity_dofs()`, and it contains numbers beyond the space dimension. -/
theorem C69_constrained (fiat : Leaf → EntityDofs) (subs : Cell → EntityMap (List (Dim × Nat)))
    (l : Leaf) (N : Nat) (hg : GoodLeaf l)
    (hcov : Covers (fiat l) l.cell.topology) (hpart : Partition (fiat l) N) (hN : l.fns.length < N)
    (hs : SubEntitiesOK (subs l.cell) l.cell.topology)
    (ents : Dict Nat (List (Dim × Nat))) (lc : List (Dim × Nat))
    (h1 : (subs l.cell).get? l.cell.dimension = some ents) (h2 : ents.get? 0 = some lc)
    (hall : ∀ dim n, (dim, n) ∈ l.cell.topology → ∀ k < n, (dim, k) ∈ lc) :
    ∃ cl, closureDofs fiat subs (.leaf l) = .ok cl ∧
      dofsOn cl l.cell.dimension 0 = List.range N ∧ (Elem.leaf l).spaceDim < N ∧
      ¬ ClosureOf (subs l.cell) l.dofs cl := by
  -- the FIAT element as a leaf of its own
  let m : Leaf := { l with fns := List.range N, dofs := fiat l }
  have hm : Good (.leaf m) := by
    refine ⟨hcov, ?_⟩
    show Partition (fiat l) (List.range N).length
    rwa [List.length_range]
  obtain ⟨d, cl, hd, hcl, hk, hh⟩ := C08_closure_dofs (.leaf m) l.cell hm rfl (subs l.cell) hs
  have hd' : d = fiat l := by
    simp only [Elem.entityDofs, Except.ok.injEq] at hd
    exact hd.symm
  have hcell := C08_closure_cell (.leaf m) l.cell hm rfl (subs l.cell) hs d cl hd hcl ents lc h1 h2 hall
  have hsd : (Elem.leaf m).spaceDim = N := by simp [Elem.spaceDim, m]
  rw [hsd] at hcell
  refine ⟨cl, by rw [closureDofs, ← hd', hcl], hcell, by simpa [Elem.spaceDim] using hN, ?_⟩
  rintro ⟨_, hcl'⟩
  have hmem : l.fns.length ∈ dofsOn cl l.cell.dimension 0 := by
    rw [hcell]; exact List.mem_range.2 hN
  obtain ⟨x, hx, hv⟩ := ((hcl' _ ents 0 lc h1 h2).2 _).1 hmem
  obtain ⟨n, hn, hlt⟩ := ((hs.2 _ (Dict.mem_of_get?_eq_some h1)).2 _ (Dict.mem_of_get?_eq_some h2)).2 x hx
  have hperm := (allDofs_perm_top hg.1 l.cell.topology_nodup).symm.trans hg.2
  have : l.fns.length ∈ List.range l.fns.length := by
    rw [← hperm.mem_iff]
    exact List.mem_flatMap.2 ⟨_, hn, List.mem_flatMap.2 ⟨x.2, List.mem_range.2 hlt, hv⟩⟩
  simp at this

/-- **C69**, what a caller of such an element can rely on: if the element's dofs on every entity are the
FIAT element's with the numbers from `n` on dropped (`n` the space dimension), then the returned closures with the same
numbers dropped are the closures of `entity_dofs()`. -/
theorem C69_dropped (fiat : Leaf → EntityDofs) (subs : Cell → EntityMap (List (Dim × Nat)))
    (l : Leaf) (N : Nat)
    (hcov : Covers (fiat l) l.cell.topology) (hpart : Partition (fiat l) N)
    (hs : SubEntitiesOK (subs l.cell) l.cell.topology)
    (hd : ∀ dim ent, dofsOn l.dofs dim ent = (dofsOn (fiat l) dim ent).filter (· < (Elem.leaf l).spaceDim)) :
    ∃ cl, closureDofs fiat subs (.leaf l) = .ok cl ∧ cl.keys = (subs l.cell).keys ∧
      ∀ dim ents ent lc, (subs l.cell).get? dim = some ents → ents.get? ent = some lc →
        ((dofsOn cl dim ent).filter (· < (Elem.leaf l).spaceDim)).Pairwise (· < ·) ∧
        ∀ v, v ∈ (dofsOn cl dim ent).filter (· < (Elem.leaf l).spaceDim) ↔
          ∃ x ∈ lc, v ∈ dofsOn l.dofs x.1 x.2 := by
  let m : Leaf := { l with fns := List.range N, dofs := fiat l }
  have hm : Good (.leaf m) := by
    refine ⟨hcov, ?_⟩
    show Partition (fiat l) (List.range N).length
    rwa [List.length_range]
  obtain ⟨d, cl, hd0, hcl, hk, hh⟩ := C08_closure_dofs (.leaf m) l.cell hm rfl (subs l.cell) hs
  have hd' : d = fiat l := by
    simp only [Elem.entityDofs, Except.ok.injEq] at hd0
    exact hd0.symm
  subst hd'
  refine ⟨cl, by rw [closureDofs, hcl], hk, fun dim ents ent lc h1 h2 => ?_⟩
  obtain ⟨hs1, hs2⟩ := hh dim ents ent lc h1 h2
  refine ⟨hs1.filter _, fun v => ?_⟩
  simp only [List.mem_filter, hs2, hd]
  constructor
  · rintro ⟨⟨x, hx, hv⟩, hlt⟩
    exact ⟨x, hx, hv, hlt⟩
  · rintro ⟨x, hx, hv, hlt⟩
    exact ⟨⟨x, hx, hv⟩, hlt⟩

namespace ClosureEx

/-- Sub-entities of the triangle as FIAT lists them. -/
def triangleSubs : EntityMap (List (Dim × Nat)) :=
  [(.int 0, [(0, [(.int 0, 0)]), (1, [(.int 0, 1)]), (2, [(.int 0, 2)])]),
   (.int 1, [(0, [(.int 0, 1), (.int 0, 2), (.int 1, 0)]),
             (1, [(.int 0, 0), (.int 0, 2), (.int 1, 1)]),
             (2, [(.int 0, 0), (.int 0, 1), (.int 1, 2)])]),
   (.int 2, [(0, [(.int 0, 0), (.int 0, 1), (.int 0, 2), (.int 1, 0), (.int 1, 1), (.int 1, 2), (.int 2, 0)])])]

/-- Dofs by dimension and entity as a dictionary. -/
def table (d : Stress.EntityDofs) : EntityDofs :=
  (enumFrom 0 d).map fun p => (.int p.1, enumFrom 0 p.2)

/-- The dofs of FIAT's Bell element: value, gradient and Hessian at the vertices, one further dof on
every edge. -/
def fiatBell : Stress.EntityDofs :=
  [[[0, 1, 2, 3, 4, 5], [6, 7, 8, 9, 10, 11], [12, 13, 14, 15, 16, 17]], [[18], [19], [20]], [[]]]

/-- FInAT's Bell element. -/
def bell : Leaf where
  id := 0
  kind := .physicallyMapped
  cell := .simplex 2
  formdegree := none
  valueShape := []
  mapping := none
  degree := 5
  fns := List.range Stress.bellDim
  dofs := table (Stress.facetlessDofs 2 fiatBell)

theorem topology : (Cell.simplex 2).topology = [(.int 0, 3), (.int 1, 3), (.int 2, 1)] := by decide

theorem good_bell : GoodLeaf bell := by
  refine ⟨⟨by decide +kernel, ?_⟩, by decide +kernel⟩
  rw [show bell.cell.topology = [(.int 0, 3), (.int 1, 3), (.int 2, 1)] from topology]
  simp only [List.mem_cons, List.not_mem_nil, or_false, forall_eq_or_imp, forall_eq]
  exact ⟨⟨_, List.mem_cons_self, by decide⟩, ⟨_, List.mem_cons_of_mem _ List.mem_cons_self, by decide⟩,
    ⟨_, List.mem_cons_of_mem _ (List.mem_cons_of_mem _ List.mem_cons_self), by decide⟩⟩

theorem covers_fiat : Covers (table fiatBell) bell.cell.topology := by
  refine ⟨by decide +kernel, ?_⟩
  rw [show bell.cell.topology = [(.int 0, 3), (.int 1, 3), (.int 2, 1)] from topology]
  simp only [List.mem_cons, List.not_mem_nil, or_false, forall_eq_or_imp, forall_eq]
  exact ⟨⟨_, List.mem_cons_self, by decide⟩, ⟨_, List.mem_cons_of_mem _ List.mem_cons_self, by decide⟩,
    ⟨_, List.mem_cons_of_mem _ (List.mem_cons_of_mem _ List.mem_cons_self), by decide⟩⟩

theorem subs_ok : SubEntitiesOK triangleSubs bell.cell.topology := by
  rw [show bell.cell.topology = [(.int 0, 3), (.int 1, 3), (.int 2, 1)] from topology]
  have h : ∀ p ∈ triangleSubs, p.2.keys.Nodup ∧ ∀ q ∈ p.2, q.2.Nodup ∧ ∀ x ∈ q.2,
      (([(.int 0, 3), (.int 1, 3), (.int 2, 1)] : List (Dim × Nat)).any
        fun y => decide (y.1 = x.1) && decide (x.2 < y.2)) = true := by decide +kernel
  refine ⟨by decide, fun p hp => ⟨(h p hp).1, fun q hq => ⟨((h p hp).2 q hq).1, fun x hx => ?_⟩⟩⟩
  obtain ⟨y, hy, hyx⟩ := List.any_eq_true.1 (((h p hp).2 q hq).2 x hx)
  simp only [Bool.and_eq_true, decide_eq_true_eq] at hyx
  exact ⟨y.2, by rw [← hyx.1]; exact hy, hyx.2⟩

end ClosureEx

open ClosureEx in
/-- **C69** fails for the Bell element: it has 18 dofs, and the closure of its cell lists 21. -/
theorem C69_bell : ∃ cl, closureDofs (fun _ => table fiatBell) (fun _ => triangleSubs) (.leaf bell) = .ok cl ∧
    (Elem.leaf bell).spaceDim = 18 ∧ dofsOn cl (.int 2) 0 = List.range 21 ∧
    ¬ ClosureOf triangleSubs bell.dofs cl := by
  obtain ⟨cl, h1, h2, h3, h4⟩ := C69_constrained (fun _ => table fiatBell) (fun _ => triangleSubs) bell 21
    good_bell covers_fiat (by decide +kernel) (by decide) subs_ok _ _ rfl rfl
    (by
      intro dim n hn k hk
      rw [show bell.cell.topology = [(.int 0, 3), (.int 1, 3), (.int 2, 1)] from topology] at hn
      have h : ∀ y ∈ ([(.int 0, 3), (.int 1, 3), (.int 2, 1)] : List (Dim × Nat)), ∀ k < y.2,
          (y.1, k) ∈ [(Dim.int 0, 0), (.int 0, 1), (.int 0, 2), (.int 1, 0), (.int 1, 1), (.int 1, 2), (.int 2, 0)] := by
        decide
      exact h (dim, n) hn k hk)
  exact ⟨cl, h1, by decide, h2, h4⟩

namespace ClosureEx

/-- Non-vacuity of `C69_dropped`: the Bell element drops the numbers from 18 on. -/
example : ∃ cl, closureDofs (fun _ => table fiatBell) (fun _ => triangleSubs) (.leaf bell) = .ok cl ∧
    cl.keys = triangleSubs.keys := by
  obtain ⟨cl, h1, h2, _⟩ := C69_dropped (fun _ => table fiatBell) (fun _ => triangleSubs) bell 21
    covers_fiat (by decide +kernel) subs_ok (by
      intro dim ent
      by_cases h0 : dim = .int 0
      · subst h0
        match ent with
        | 0 => decide +kernel
        | 1 => decide +kernel
        | 2 => decide +kernel
        | k + 3 => rfl
      by_cases h1 : dim = .int 1
      · subst h1
        match ent with
        | 0 => decide +kernel
        | 1 => decide +kernel
        | 2 => decide +kernel
        | k + 3 => rfl
      by_cases h2 : dim = .int 2
      · subst h2
        match ent with
        | 0 => decide +kernel
        | k + 1 => rfl
      · have e1 : ∀ d : Stress.EntityDofs, d.length = 3 → (table d).get? dim = none := by
          intro d hd
          match d, hd with
          | [a, b, c], _ =>
            simp [table, enumFrom, Dict.get?, Ne.symm h0, Ne.symm h1, Ne.symm h2]
        have e2 := e1 (Stress.facetlessDofs 2 fiatBell) rfl
        have e3 := e1 fiatBell rfl
        simp [dofsOn, bell, e2, e3])
  exact ⟨cl, h1, h2⟩

/-- Non-vacuity of `C69_closure_partial`: a mixed sub-element whose FIAT element has no constrained dofs. -/
example : ∃ d cl, (Elem.mixedSub (.leaf cg1) 2 1).entityDofs = .ok d ∧
    closureDofs (fun l => l.dofs) (fun _ => intervalSubs) (.mixedSub (.leaf cg1) 2 1) = .ok cl ∧
    ClosureOf intervalSubs d cl :=
  C69_closure_partial (fun l => l.dofs) (fun _ => intervalSubs) (.mixedSub (.leaf cg1) 2 1) (.simplex 1)
    good_cg1 rfl (by
      have h : ∀ p ∈ intervalSubs, p.2.keys.Nodup ∧ ∀ q ∈ p.2, q.2.Nodup ∧ ∀ x ∈ q.2,
          (([(.int 0, 2), (.int 1, 1)] : List (Dim × Nat)).any
            fun y => decide (y.1 = x.1) && decide (x.2 < y.2)) = true := by decide +kernel
      rw [show (Cell.simplex 1).topology = [(.int 0, 2), (.int 1, 1)] by decide]
      refine ⟨by decide, fun p hp => ⟨(h p hp).1, fun q hq => ⟨((h p hp).2 q hq).1, fun x hx => ?_⟩⟩⟩
      obtain ⟨y, hy, hyx⟩ := List.any_eq_true.1 (((h p hp).2 q hq).2 x hx)
      simp only [Bool.and_eq_true, decide_eq_true_eq] at hyx
      exact ⟨y.2, by rw [← hyx.1]; exact hy, hyx.2⟩)
    (fun _ _ => rfl)

end ClosureEx

end FInAT.Props
