import Verif.Lemmas.FreeIndices
import Verif.Lemmas.FreeEval
import Verif.Props.PointEval
import Verif.Props.Dual
import Verif.Props.SupportExamples

/-!
# C96: the expressions have no free indices but those of the points
-/

namespace FInAT.Props

open FInAT FInAT.Spec

section meaning

variable {K : Type} [CommRing K]

/-- What being free means: the entries of an expression that respects the shapes depend on the values of its free
indices only. -/
theorem C96_meaning (e : Gem K) (hw : e.WellShaped) (ρ ρ' : Nat → Nat) (h : ∀ n, e.Free n → ρ n = ρ' n)
    (v : List Nat) (hv : v.length = e.shape.length) : e.eval ρ v = e.eval ρ' v :=
  eval_congr_free e ρ ρ' v hw hv h

/-- C96, `element.basis_evaluation(order, ps, entity)`: every expression of the table respects the shapes and its
free indices are among `ps.indices`. -/
theorem C96_basis (F : Fiat K) (R : Rules K) (e : Elem) (order : Nat) (ps : PSet K) (entity : Option (Dim × Nat))
    {n m : Nat} {T : Tab K} (h : evaluate (basisInterp F R) e order ps entity n = .ok (T, m)) :
    ∀ α t, (α, t) ∈ T → t.WellShaped ∧ ∀ k, t.Free k → ∃ i ∈ ps.indices, i.id = k := by
  intro α t ht
  have := post_evaluate (basisInterp_free F R) e order ps entity trivial n T m h _ ht
  exact ⟨this.1, fun k hk => List.mem_map.1 (this.2 k hk)⟩

/-- C96, `element.basis_evaluation(order, ps, entity, coordinate_mapping)`, for a mapping given or not. -/
theorem C96_basis_mapping (F : Fiat K) (R : Rules K) (e : Elem) (order : Nat) (ps : PSet K) (mapping : Bool)
    (entity : Option (Dim × Nat)) {n m : Nat} {T : Tab K}
    (h : evaluate (mappedInterp F R) e order (ps, mapping) entity n = .ok (T, m)) :
    ∀ α t, (α, t) ∈ T → t.WellShaped ∧ ∀ k, t.Free k → ∃ i ∈ ps.indices, i.id = k := by
  intro α t ht
  have := post_evaluate (mappedInterp_free F R) e order (ps, mapping) entity trivial n T m h _ ht
  exact ⟨this.1, fun k hk => List.mem_map.1 (this.2 k hk)⟩

/-- C96, values: the entries of a table at one point are the same whatever the values of all other indices. -/
theorem C96_values (F : Fiat K) (R : Rules K) (e : Elem) (order : Nat) (ps : PSet K) (entity : Option (Dim × Nat))
    {n m : Nat} {T : Tab K} (h : evaluate (basisInterp F R) e order ps entity n = .ok (T, m)) (ρ ρ' : Nat → Nat)
    (hρ : ∀ i ∈ ps.indices, ρ i.id = ρ' i.id) (α : List Nat) (t : Gem K) (ht : (α, t) ∈ T) (v : List Nat)
    (hv : v.length = t.shape.length) : t.eval ρ v = t.eval ρ' v := by
  obtain ⟨hw, hf⟩ := C96_basis F R e order ps entity h α t ht
  refine C96_meaning t hw ρ ρ' (fun k hk => ?_) v hv
  obtain ⟨i, hi, rfl⟩ := hf k hk
  exact hρ i hi

/-- C96, `element.point_evaluation(order, point, entity)`: the free indices are among those of the point, provided
FIAT's symbolic tables mention nothing but the point. -/
theorem C96_point (F : Fiat K) (T : SymTab K)
    (hT : ∀ l α ent p i z, p.WellShaped → (T l α ent p i z).WellShaped ∧ ∀ k, (T l α ent p i z).Free k → p.Free k)
    (e : Elem) (order : Nat) (p : Gem K) (hp : p.WellShaped) (entity : Option (Dim × Nat)) {n m : Nat} {tab : Tab K}
    (h : evaluate (pointInterp F T) e order p entity n = .ok (tab, m)) :
    ∀ α t, (α, t) ∈ tab → t.WellShaped ∧ ∀ k, t.Free k → p.Free k :=
  fun _ _ ht => post_evaluate (pointInterp_free F hT) e order p entity hp n tab m h _ ht

section dual
variable [DecidableEq K]

/-- C96, `Q, ps = element.dual_basis`: the free indices of `Q` are among `ps.indices`. -/
theorem C96_dual (D : FiatDual K) (R : Rules K) (e : Elem) {n m : Nat} {Q : Gem K} {ps : PSet K}
    (h : dualBasis D R e n = .ok ((Q, ps), m)) :
    Q.WellShaped ∧ ∀ k, Q.Free k → ∃ i ∈ ps.indices, i.id = k := by
  have := post_dual D R e n _ m h
  exact ⟨this.1, fun k hk => List.mem_map.1 (this.2 k hk)⟩

/-- C96, `expr, indices = element.dual_evaluation(fn)`: besides the returned indices only those are free that `fn(ps)`
has in addition to the indices of the points. -/
theorem C96_dual_evaluation (D : FiatDual K) (R : Rules K) (e : Elem) (fn : PSet K → M (Gem K)) (G : Nat → Prop)
    (hfn : ∀ ps n t m, fn ps n = .ok (t, m) → t.WellShaped ∧ ∀ k, t.Free k → G k ∨ ∃ i ∈ ps.indices, i.id = k)
    {n m : Nat} {expr : Gem K} {indices : List Index} (h : dualEvaluation D R e fn n = .ok ((expr, indices), m)) :
    expr.WellShaped ∧ ∀ k, expr.Free k → G k ∨ ∃ i ∈ indices, i.id = k := by
  have := post_dualEvaluation (D := D) (R := R) (e := e) (fn := fn) (G := G) (fun ps n t m h =>
    ⟨(hfn ps n t m h).1, fun k hk => ((hfn ps n t m h).2 k hk).imp id List.mem_map.2⟩) n _ m h
  exact ⟨this.1, fun k hk => (this.2 k hk).imp id List.mem_map.1⟩

end dual

end meaning

section support
variable {K : Type} [Field K]

/-- C96, `rule.weight_expression`: the free indices are among those of the points of the rule. -/
theorem C96_weights (q : QRule K) {n m : Nat} {w : Gem K} (h : q.weightExpr n = .ok (w, m)) :
    w.WellShaped ∧ ∀ k, w.Free k → ∃ i ∈ q.pointSet.indices, i.id = k := by
  have := post_weight q n w m h
  exact ⟨this.1, fun k hk => List.mem_map.1 (this.2 k hk)⟩

/-- C96, `element.entity_support_dofs()`: the expression evaluated on an entity has no free indices, so the
assertion that there are none never fails. -/
theorem C96_support (F : Fiat K) (R : Rules K) (e : Elem) (beta zeta : List Index) (q : QRule K) (ent : Dim × Nat)
    {n m : Nat} {t : Gem K} (h : supportExpr (basisInterp F R) e beta zeta q ent n = .ok (t, m)) :
    t.WellShaped ∧ ∀ k, ¬ t.Free k :=
  post_support (basisInterp_free F R) n t m h

end support

namespace FreeCases

/-- The table of a vector element at three points with derivatives up to any order. -/
example (order : Nat) : ∃ T m, evaluate (basisInterp exFiat exRules) vec order exPts none 1 = .ok (T, m) ∧
    ∀ α t, (α, t) ∈ T → ∀ k, t.Free k → k = 0 := by
  obtain ⟨T, m, h, _⟩ := C14_derivative_of_product exFiat exRules exPoly vec .quad [2] order 1 exPts shaped_vec
    cubes_vec (leaves_vec order) cell_vec rfl exPts_wf exPts_plain
  refine ⟨T, m, h, fun α t ht k hk => ?_⟩
  obtain ⟨i, hi, rfl⟩ := (C96_basis _ _ _ _ _ _ h α t ht).2 k hk
  simp only [exPts, PSet.indices, List.mem_singleton] at hi
  rw [hi]

/-- The index of the points is free in the table of a non-constant element: the theorem is not about expressions
without free indices. -/
example : ∃ t m, evaluate (basisInterp exFiat exRules) (.leaf cg1) 0 (linePts .plain) none 1 = .ok ([([0], t)], m) ∧
    t.Free 0 ∧ ∀ k, t.Free k → k = 0 := by
  refine ⟨_, _, rfl, ?_, ?_⟩
  · simp [Gem.Free, freshIndices.mk, linePts, PSet.indices, Gem.shape]
  · simp [Gem.Free, freshIndices.mk, linePts, PSet.indices, Gem.shape]
    omega

/-- Dual basis and dual evaluation of a tree with 12 basis functions. -/
example (tr : Bool) : ∃ Q ps m, dualBasis exDual twoRule (exTree tr) 1 = .ok ((Q, ps), m) ∧
    ∀ k, Q.Free k → ∃ i ∈ ps.indices, i.id = k := by
  obtain ⟨⟨Q, ps⟩, m, h, _⟩ := C20_interpolation_partial exDual twoRule exDual_one (leafVals exFiat twoRule) (exTree tr)
    (.prod [.prod [.simplex 1, .simplex 1], .simplex 1]) 1 [3, 2] (exTree_shaped tr) (exTree_ok tr)
    (by simp [exTree, quadIds, quadIdsL, exQuad, twoRule, PSet.indices]) rfl rfl (exTree_pair tr)
  exact ⟨Q, ps, m, h, (C96_dual exDual twoRule (exTree tr) h).2⟩
example : ∃ expr indices m, dualEvaluation exDual twoRule (exTree false) exFn 1 = .ok ((expr, indices), m) ∧
    indices.map Index.extent = (exTree false).indexShape ∧ ∀ k, expr.Free k → ∃ i ∈ indices, i.id = k := by
  obtain ⟨⟨x, is⟩, m, h, _, _, h2, _⟩ := C21_dual_evaluation_partial exDual twoRule exDual_one (exTree false) 1 [3, 2]
    (exTree_shaped _) (exTree_ok _) (by simp [exTree, quadIds, quadIdsL, exQuad, twoRule, PSet.indices]) rfl
    (by simp [TransposedTensor, exTree]) exFn _ exFn_evaluates (fun _ _ _ => rfl)
  refine ⟨x, is, m, h, h2, fun k hk => ((C96_dual_evaluation exDual twoRule (exTree false) exFn (fun _ => False) (by
    intro ps n t m h
    cases h
    exact ⟨by simp [Gem.WellShaped], by simp [Gem.Free]⟩) h).2 k hk).resolve_left id⟩

/-- The integrals of the squares of linear functions with a rule of two points. -/
example : ∃ t m, supportExpr (basisInterp (SupEx.fiat 1) SupEx.rules) (.leaf cg1) [⟨1, 2⟩] []
      (.rule (.points .plain [[0], [1]] [⟨0, 2⟩]) [1 / 2, 1 / 2]) (.int 1, 0) 2 = .ok (t, m) ∧
    t.shape = [2] ∧ ∀ k, ¬ t.Free k :=
  ⟨_, _, rfl, rfl, (C96_support (SupEx.fiat 1) SupEx.rules (.leaf cg1) [⟨1, 2⟩] []
    (.rule (.points .plain [[0], [1]] [⟨0, 2⟩]) [1 / 2, 1 / 2]) (.int 1, 0) (n := 2) rfl).2⟩

/-- Symbolic tables: basis function `i` is `i` times the coordinate of the interval. -/
def coordinate : SymTab ℤ := fun _ _ _ p i _ =>
  if p.shape.length = 1 then .product (.literal [] fun _ => i) (.indexed p [.fixed 0]) else .zero []

theorem coordinate_only : ∀ l α ent p i z, p.WellShaped → (coordinate l α ent p i z).WellShaped ∧
    ∀ k, (coordinate l α ent p i z).Free k → p.Free k := by
  intro l α ent p i z hp
  unfold coordinate
  split
  · rename_i h
    exact ⟨by simp [Gem.WellShaped, hp, h, Gem.shape], by simp [Gem.Free]⟩
  · exact ⟨by simp [Gem.WellShaped], by simp [Gem.Free]⟩

/-- A point of the square with two free indices. -/
example : ∃ t m, evaluate (pointInterp exFiat coordinate) (.tensorProduct [.leaf cg1, .leaf cg1]) 0 exPoint none 2 =
      .ok ([([0, 0], t)], m) ∧ ∀ k, t.Free k → k = 0 ∨ k = 1 := by
  refine ⟨_, _, rfl, fun k hk => ?_⟩
  have := (C96_point exFiat coordinate coordinate_only (.tensorProduct [.leaf cg1, .leaf cg1]) 0 exPoint
    (by simp [exPoint, Gem.WellShaped, Gem.WellShapedL, Gem.shape]) none (n := 2) rfl
    [0, 0] _ (List.mem_singleton.2 rfl)).2 k hk
  simpa [exPoint, Gem.Free, Gem.FreeL, eq_comm] using this

end FreeCases

end FInAT.Props
