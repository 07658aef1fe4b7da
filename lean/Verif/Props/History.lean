import Verif.Lemmas.History
import Verif.Props.FreeIndices
import Verif.Props.SupportExamples

/-!
# C98: results do not depend on what has been computed before

Constructions are started at two moments `n` and `n'`, the numbers of indices created before.
-/

namespace FInAT.Props

open FInAT FInAT.Spec

section ring

variable {K : Type} [CommRing K]

/-- C98, `element.basis_evaluation(order, ps, entity)`: at any two moments after the creation of the points, both calls
raise the same exception or both return tables with the same keys, shapes and values. -/
theorem C98_basis (F : Fiat K) (R : Rules K) (e : Elem) (order : Nat) (ps : PSet K) (entity : Option (Dim × Nat))
    (n n' : Nat) (hps : ∀ i ∈ ps.indices, i.id < n ∧ i.id < n') :
    SameOutcome (SameTable ps.indices) (evaluate (basisInterp F R) e order ps entity n)
      (evaluate (basisInterp F R) e order ps entity n') := by
  have hb : ∀ t, min n n' ≤ t → ps.Before t := fun t ht i hi => lt_of_lt_of_le (lt_min (hps i hi).1 (hps i hi).2) ht
  refine outcome_of_eqv (g := fun t d => Tab.ren (shift t d)) (Nat.min_le_left n n') (Nat.min_le_right n n')
    (fun t d ht => ?_) fun t d T m ht hT => ?_
  · have := eqv_evaluate (basisInterp_eqv (t := t) (d := d) F R) e order ps entity
    rwa [PSet.ren_before ps (hb t ht)] at this
  · have h : SameTable ps.indices T (Tab.ren (shift t d) T) :=
      sameTable_ren (hb t ht) (post_evaluate (basisInterp_free F R) e order ps entity trivial t T m hT)
    exact ⟨h, h.symm⟩

/-- C98, `element.basis_evaluation(order, ps, entity, coordinate_mapping)`. -/
theorem C98_basis_mapping (F : Fiat K) (R : Rules K) (e : Elem) (order : Nat) (ps : PSet K) (mapping : Bool)
    (entity : Option (Dim × Nat)) (n n' : Nat) (hps : ∀ i ∈ ps.indices, i.id < n ∧ i.id < n') :
    SameOutcome (SameTable ps.indices) (evaluate (mappedInterp F R) e order (ps, mapping) entity n)
      (evaluate (mappedInterp F R) e order (ps, mapping) entity n') := by
  have hb : ∀ t, min n n' ≤ t → ps.Before t := fun t ht i hi => lt_of_lt_of_le (lt_min (hps i hi).1 (hps i hi).2) ht
  refine outcome_of_eqv (g := fun t d => Tab.ren (shift t d)) (Nat.min_le_left n n') (Nat.min_le_right n n')
    (fun t d ht => ?_) fun t d T m ht hT => ?_
  · have := eqv_evaluate (mappedInterp_eqv (t := t) (d := d) F R) e order (ps, mapping) entity
    rwa [PSet.ren_before ps (hb t ht)] at this
  · have h : SameTable ps.indices T (Tab.ren (shift t d) T) :=
      sameTable_ren (hb t ht) (post_evaluate (mappedInterp_free F R) e order (ps, mapping) entity trivial t T m hT)
    exact ⟨h, h.symm⟩

/-- C98, `element.point_evaluation(order, point, entity)`, provided FIAT's symbolic tables mention nothing but the
point and treat the names of its indices as names. The values are compared for the same values of all indices. -/
theorem C98_point (F : Fiat K) (S : SymTab K)
    (hS : ∀ l α ent p i z, p.WellShaped → (S l α ent p i z).WellShaped ∧ ∀ k, (S l α ent p i z).Free k → p.Free k)
    (hN : ∀ t d l α ent p i z, S l α ent (p.ren (shift t d)) i z = (S l α ent p i z).ren (shift t d))
    (e : Elem) (order : Nat) (p : Gem K) (hp : p.WellShaped) (entity : Option (Dim × Nat)) (n n' : Nat)
    (hu : ∀ k, p.Uses k → k < n ∧ k < n') :
    SameOutcome (List.Forall₂ fun a b => a.1 = b.1 ∧ a.2.shape = b.2.shape ∧
        ∀ ρ v, v.length = a.2.shape.length → a.2.eval ρ v = b.2.eval ρ v)
      (evaluate (pointInterp F S) e order p entity n) (evaluate (pointInterp F S) e order p entity n') := by
  have hb : ∀ t, min n n' ≤ t → ∀ k, p.Uses k → k < t := fun t ht k hk => lt_of_lt_of_le (lt_min (hu k hk).1 (hu k hk).2) ht
  refine outcome_of_eqv (g := fun t d => Tab.ren (shift t d)) (Nat.min_le_left n n') (Nat.min_le_right n n')
    (fun t d ht => ?_) fun t d T m ht hT => ?_
  · have := eqv_evaluate (pointInterp_eqv (t := t) (d := d) F (hN t d)) e order p entity
    rwa [Gem.ren_before p (hb t ht)] at this
  · have hf := post_evaluate (pointInterp_free F hS) e order p entity hp t T m hT
    have key : ∀ a ∈ T, ∀ ρ v, v.length = a.2.shape.length →
        a.2.eval ρ v = (a.2.ren (shift t d)).eval ρ v := by
      intro a ha ρ v hv
      rw [Gem.eval_ren (shift_injective t d)]
      refine eval_congr_free a.2 _ _ v (hf a ha).1 hv fun k hk => ?_
      exact congrArg ρ (shift_of_lt (hb t ht k (Gem.uses_of_free p ((hf a ha).2 k hk)))).symm
    constructor
    · unfold Tab.ren
      rw [List.forall₂_map_right_iff, List.forall₂_same]
      exact fun a ha => ⟨rfl, (Gem.shape_ren a.2).symm, key a ha⟩
    · unfold Tab.ren
      rw [List.forall₂_map_left_iff, List.forall₂_same]
      exact fun a ha => ⟨rfl, Gem.shape_ren a.2, fun ρ v hv => (key a ha ρ v (by rw [Gem.shape_ren] at hv; exact hv)).symm⟩

section dual
variable [DecidableEq K]

/-- C98, `Q, ps = element.dual_basis`, after the creation of the rules of its quadrature elements: the same points, and
the same weights when the indices of the points have the same values. -/
theorem C98_dual (D : FiatDual K) (R : Rules K) (e : Elem) (n n' : Nat)
    (hR : ∀ r, ∀ i ∈ (R.pointSet r).indices, i.id < n ∧ i.id < n') :
    SameOutcome (fun a b => SamePoints a.2 b.2 ∧ SameValuesOn a.2.indices b.2.indices a.1 b.1)
      (dualBasis D R e n) (dualBasis D R e n') := by
  have hb : ∀ t, min n n' ≤ t → R.Before t := fun t ht r i hi =>
    lt_of_lt_of_le (lt_min (hR r i hi).1 (hR r i hi).2) ht
  refine outcome_of_eqv (g := fun t d => renDual (shift t d)) (Nat.min_le_left n n') (Nat.min_le_right n n')
    (fun t d ht => eqv_dual (hb t ht) e) fun t d a m _ ha => ?_
  have hf := post_dual D R e t a m ha
  have h : SameValuesOn a.2.indices (a.2.ren (shift t d)).indices a.1 (a.1.ren (shift t d)) := by
    refine sameValues_ren (shift_injective t d) hf.1 fun k hk ρ ρ' hρ => ?_
    obtain ⟨i, hi, rfl⟩ := List.mem_map.1 (hf.2 k hk)
    rw [PSet.indices_ren] at hρ
    exact sameOn_ren hρ hi
  exact ⟨⟨samePoints_ren _ _, h⟩, (samePoints_ren _ _).symm, h.symm⟩

/-- C98, `expr, indices = element.dual_evaluation(fn)`: the same extents of the indices and the same coefficients. The
function may use indices `given` that were created before. -/
theorem C98_dual_evaluation (D : FiatDual K) (R : Rules K) (e : Elem) (fn : PSet K → M (Gem K)) (hN : NamesOnly fn)
    (given : List Index)
    (hfn : ∀ ps n t m, fn ps n = .ok (t, m) → t.WellShaped ∧
      ∀ k, t.Free k → (∃ i ∈ given, i.id = k) ∨ ∃ i ∈ ps.indices, i.id = k)
    (n n' : Nat) (hR : ∀ r, ∀ i ∈ (R.pointSet r).indices, i.id < n ∧ i.id < n')
    (hg : ∀ i ∈ given, i.id < n ∧ i.id < n') :
    SameOutcome (fun a b => a.2.map Index.extent = b.2.map Index.extent ∧
        SameValuesOn (given ++ a.2) (given ++ b.2) a.1 b.1)
      (dualEvaluation D R e fn n) (dualEvaluation D R e fn n') := by
  have hb : ∀ t, min n n' ≤ t → R.Before t := fun t ht r i hi =>
    lt_of_lt_of_le (lt_min (hR r i hi).1 (hR r i hi).2) ht
  refine outcome_of_eqv (g := fun t d r => (r.1.ren (shift t d), r.2.map (Index.ren (shift t d))))
    (Nat.min_le_left n n') (Nat.min_le_right n n')
    (fun t d ht => eqv_dualEvaluation (hb t ht) fun ps m hm => hN t d m ps hm) fun t d a m ht ha => ?_
  have hgt : ∀ i ∈ given, i.id < t := fun i hi => lt_of_lt_of_le (lt_min (hg i hi).1 (hg i hi).2) ht
  obtain ⟨hw, hf⟩ := C96_dual_evaluation D R e fn (fun k => ∃ i ∈ given, i.id = k) hfn ha
  have h : SameValuesOn (given ++ a.2) (given ++ a.2.map (Index.ren (shift t d))) a.1 (a.1.ren (shift t d)) := by
    have hgm := map_ren_before (d := d) hgt
    refine sameValues_ren (shift_injective t d) hw fun k hk ρ ρ' hρ => ?_
    rw [← hgm, ← List.map_append, hgm] at hρ
    rcases hf k hk with ⟨i, hi, rfl⟩ | ⟨i, hi, rfl⟩
    · exact sameOn_ren hρ (List.mem_append_left _ hi)
    · exact sameOn_ren hρ (List.mem_append_right _ hi)
  exact ⟨⟨by simp [Function.comp_def], h⟩, by simp [Function.comp_def], h.symm⟩

end dual

end ring

section field
variable {K : Type} [Field K]

/-- C98, `rule = make_quadrature(cell, degree, scheme)` and `rule.weight_expression`: the same points and weights. -/
theorem C98_quadrature (F : FiatQuad K) (scheme : String) (c : Cell) (degree : Degree) (n n' : Nat) :
    SameOutcome (fun a b => SamePoints a.1 b.1 ∧ SameValuesOn a.1.indices b.1.indices a.2 b.2)
      ((do
        let q ← makeQuadrature F scheme c degree
        let w ← q.weightExpr
        pure (q.pointSet, w) : M (PSet K × Gem K)) n)
      ((do
        let q ← makeQuadrature F scheme c degree
        let w ← q.weightExpr
        pure (q.pointSet, w) : M (PSet K × Gem K)) n') := by
  refine outcome_of_eqv (g := fun t d a => (a.1.ren (shift t d), a.2.ren (shift t d))) (Nat.zero_le n) (Nat.zero_le n')
    (fun t d _ => Eqv.bind (eqv_makeQuadrature c degree) fun q => Eqv.bind (eqv_weight q) fun w =>
      Eqv.pure (by rw [QRule.pointSet_ren])) fun t d a m _ ha => ?_
  have hf : a.2.FreeIn (AmongIx a.1.indices) :=
    (Post.bind' (x := makeQuadrature F scheme c degree) (Q := fun a : PSet K × Gem K => a.2.FreeIn (AmongIx a.1.indices))
      fun q => Post.bind (post_weight q) fun w hw => Post.pure hw) t a m ha
  have h : SameValuesOn a.1.indices (a.1.ren (shift t d)).indices a.2 (a.2.ren (shift t d)) := by
    refine sameValues_ren (shift_injective t d) hf.1 fun k hk ρ ρ' hρ => ?_
    obtain ⟨i, hi, rfl⟩ := List.mem_map.1 (hf.2 k hk)
    rw [PSet.indices_ren] at hρ
    exact sameOn_ren hρ hi
  exact ⟨⟨samePoints_ren _ _, h⟩, (samePoints_ren _ _).symm, h.symm⟩

/-- C98, `element.entity_support_dofs()`: the same dictionary or exception at any two moments. -/
theorem C98_support [LinearOrder K] (Q : FiatQuad K) (F : Fiat K) (R : Rules K) (e : Elem) (n n' : Nat) :
    SameOutcome Eq (supportDofs Q (basisInterp F R) e n) (supportDofs Q (basisInterp F R) e n') :=
  outcome_of_eqv (g := fun _ _ => id) (Nat.zero_le n) (Nat.zero_le n')
    (fun t d _ => eqv_supportDofs (basisInterp_eqv (t := t) (d := d) F R) e) fun _ _ _ _ _ _ => ⟨rfl, rfl⟩

end field

namespace HistoryCases

theorem ok_of_same {α : Type} {R : α → α → Prop} {x y : Except Err (α × Nat)} (h : SameOutcome R x y) {a : α} {n : Nat}
    (hx : x = .ok (a, n)) : ∃ b m, y = .ok (b, m) ∧ R a b := by
  subst hx
  rcases h with ⟨a', _, b, m, h1, h2, h3⟩ | ⟨e, h1, _⟩
  · cases h1
    exact ⟨b, m, h2, h3⟩
  · cases h1

/-- Two tabulations, with another one in between, are not the same expressions. -/
example : ∃ T m T' m', evaluate (basisInterp exFiat exRules) (.leaf cg1) 0 (linePts .plain) none 1 = .ok (T, m) ∧
    evaluate (basisInterp exFiat exRules) (.leaf cg1) 0 (linePts .plain) none m = .ok (T', m') ∧ T ≠ T' ∧
    SameTable (linePts .plain).indices T T' := by
  refine ⟨_, _, _, _, rfl, rfl, fun h => ?_, ?_⟩
  · exact absurd (congrArg (fun T => match T with
      | [(_, .componentTensor _ is)] => is.map Index.id
      | _ => []) h) (by decide)
  obtain ⟨T', m', h, hT⟩ := ok_of_same (C98_basis exFiat exRules (.leaf cg1) 0 (linePts .plain) none 1 2
    (by simp [linePts, PSet.indices])) rfl
  cases h
  exact hT

/-- A vector element at three points with derivatives up to any order, at any later moment. -/
example (order n : Nat) (hn : 0 < n) : ∃ T m T' m', evaluate (basisInterp exFiat exRules) vec order exPts none 1 = .ok (T, m) ∧
    evaluate (basisInterp exFiat exRules) vec order exPts none n = .ok (T', m') ∧ SameTable exPts.indices T T' := by
  obtain ⟨T, m, h, _⟩ := C14_derivative_of_product exFiat exRules exPoly vec .quad [2] order 1 exPts shaped_vec
    cubes_vec (leaves_vec order) cell_vec rfl exPts_wf exPts_plain
  have hs := C98_basis exFiat exRules vec order exPts none 1 n (by simpa [exPts, PSet.indices] using hn)
  obtain ⟨T', m', h', hT⟩ := ok_of_same hs h
  exact ⟨T, m, T', m', h, h', hT⟩

/-- The interpolation of a constant function by an element with twelve basis functions. -/
theorem exFn_names : NamesOnly exFn := by
  intro t d n ps _
  exact ⟨rfl, fun e m h => by cases h; exact Nat.le_refl _⟩
theorem exFn_free : ∀ ps n t m, exFn ps n = .ok (t, m) → t.WellShaped ∧
    ∀ k, t.Free k → (∃ i ∈ ([] : List Index), i.id = k) ∨ ∃ i ∈ ps.indices, i.id = k := by
  intro ps n t m h
  cases h
  exact ⟨by simp [Gem.WellShaped], by simp [Gem.Free]⟩
theorem exRule_before (n : Nat) (hn : 0 < n) : ∀ r, ∀ i ∈ (twoRule.pointSet r).indices, i.id < 1 ∧ i.id < n := by
  intro r i hi
  simp only [twoRule, PSet.indices, List.mem_singleton] at hi
  subst hi
  exact ⟨by decide, hn⟩
theorem exDual_runs : ∃ (r : Gem ℤ × List Index) (m : Nat), dualEvaluation exDual twoRule (exTree false) exFn 1 = .ok (r, m) ∧
    r.2.map Index.extent = (exTree false).indexShape := by
  obtain ⟨⟨x, is⟩, m, h, _, _, h2, _⟩ := C21_dual_evaluation_partial exDual twoRule exDual_one (exTree false) 1 [3, 2]
    (exTree_shaped _) (exTree_ok _) (by simp [exTree, quadIds, quadIdsL, exQuad, twoRule, PSet.indices]) rfl
    (by simp [TransposedTensor, exTree]) exFn _ exFn_evaluates (fun _ _ _ => rfl)
  exact ⟨(x, is), m, h, h2⟩
example (n : Nat) (hn : 0 < n) : ∃ (r : Gem ℤ × List Index) (m : Nat) (r' : Gem ℤ × List Index) (m' : Nat),
    dualEvaluation exDual twoRule (exTree false) exFn 1 = .ok (r, m) ∧
    dualEvaluation exDual twoRule (exTree false) exFn n = .ok (r', m') ∧ r'.2.map Index.extent = (exTree false).indexShape ∧
    SameValuesOn ([] ++ r.2) ([] ++ r'.2) r.1 r'.1 := by
  obtain ⟨r, m, h, h2⟩ := exDual_runs
  have hs := C98_dual_evaluation exDual twoRule (exTree false) exFn exFn_names [] exFn_free 1 n (exRule_before n hn)
    (List.forall_mem_nil _)
  obtain ⟨b, m', h', hb, hv⟩ := ok_of_same hs h
  exact ⟨r, m, b, m', h, h', hb.symm.trans h2, hv⟩

/-- The function `fn` that tabulates an element treats names as names. -/
example (F : Fiat ℤ) (R : Rules ℤ) (e : Elem) : NamesOnly (fun ps => do
    let T ← evaluate (basisInterp F R) e 0 ps none
    liftE (T.get [0]) : PSet ℤ → M (Gem ℤ)) :=
  fun t d n ps hn => (Eqv.bind (eqv_evaluate (basisInterp_eqv F R) e 0 ps none) fun T =>
    Eqv.lift (get_ren (shift t d) _ T)) n hn

theorem coordinate_names : ∀ t d l α ent p i z,
    FreeCases.coordinate l α ent (p.ren (shift t d)) i z = (FreeCases.coordinate l α ent p i z).ren (shift t d) := by
  intro t d l α ent p i z
  unfold FreeCases.coordinate
  rw [Gem.shape_ren]
  split <;> rfl
example (n : Nat) (hn : 1 < n) := C98_point exFiat FreeCases.coordinate FreeCases.coordinate_only coordinate_names
  (.tensorProduct [.leaf cg1, .leaf cg1]) 0 exPoint (by simp [exPoint, Gem.WellShaped, Gem.WellShapedL, Gem.shape]) none 2 n
  (by
    intro k hk
    simp [exPoint, Gem.Uses, Gem.UsesL] at hk
    omega)

/-- The quadrature rule of degree 3 on a product of an interval and a quadrilateral. -/
example (n : Nat) : ∃ a m b m', (do
      let q ← makeQuadrature exF "default" (.prod [.simplex 1, .quad]) (.int 3)
      let w ← q.weightExpr
      pure (q.pointSet, w) : M (PSet ℚ × Gem ℚ)) 0 = .ok (a, m) ∧ (do
      let q ← makeQuadrature exF "default" (.prod [.simplex 1, .quad]) (.int 3)
      let w ← q.weightExpr
      pure (q.pointSet, w) : M (PSet ℚ × Gem ℚ)) n = .ok (b, m') ∧ SamePoints a.1 b.1 := by
  obtain ⟨b, m', h, hb⟩ := ok_of_same (C98_quadrature exF "default" (.prod [.simplex 1, .quad]) (.int 3) 0 n) rfl
  exact ⟨_, _, b, m', rfl, h, hb.1⟩

/-- The supports of the linear element. -/
example (n n' : Nat) : ∃ d m m', supportDofs SupEx.quad (basisInterp (SupEx.fiat 1) SupEx.rules) (.leaf cg1) n = .ok (d, m) ∧
    supportDofs SupEx.quad (basisInterp (SupEx.fiat 1) SupEx.rules) (.leaf cg1) n' = .ok (d, m') := by
  obtain ⟨d, m, h, _⟩ := SupEx.base (l := cg1) (.inl rfl) (.simplex 1) rfl n
  have h' : supportDofs SupEx.quad (basisInterp (SupEx.fiat 1) SupEx.rules) (.leaf cg1) n = .ok (d, m) := by
    rw [supportDofs]
    exact h
  obtain ⟨_, m', h2, rfl⟩ := ok_of_same (C98_support SupEx.quad (SupEx.fiat 1) SupEx.rules (.leaf cg1) n n') h'
  exact ⟨d, m, m', h', h2⟩

end HistoryCases

end FInAT.Props
