import Verif.Props.Support
import Verif.Props.Quadrature

/-!
# The hypotheses of C70 are met; small functions are missed
-/

namespace FInAT.Props.SupEx

open FInAT Spec MvPolynomial

/-- The rules of `exF` and the rule on the point. -/
def quad : FiatQuad ℚ where
  isMacro _ := false
  gauss := exF.gauss
  scheme c _ _ := if c = .simplex 0 then .ok ([[]], [1]) else .error .notImplemented

theorem quad_exact : FiatExact quad "default" 3 where
  gauss := exF_exact.gauss
  scheme := by
    intro c d pw hd h
    by_cases hc : c = .simplex 0
    · subst hc
      simp only [quad, if_true, Except.ok.injEq] at h
      subst h
      refine ⟨rfl, by simp [Cell.spatialDim], fun α ha hs => ?_⟩
      match α, ha with
      | [], _ => simp [monoVal, moment, Nat.factorial]
    · simp [quad, if_neg hc] at h

/-- Coefficients of the basis functions `a + b x`; the constant of `dg0` is a parameter. -/
def coef (κ : ℚ) (l : Leaf) (i : Nat) : ℚ × ℚ :=
  match l.id, i with
  | 0, 0 => (1, -1)
  | 0, 1 => (0, 1)
  | 2, 0 => (κ, 0)
  | _, _ => (0, 0)

/-- Linear functions on the interval; vertex `k` is the point `k`. -/
noncomputable def fiat (κ : ℚ) : Fiat ℚ :=
  polyFiat (fun l i _ => C (coef κ l i).1 + C (coef κ l i).2 * X 0)
    fun _ ent x => match ent with
      | (.int 0, k) => [(k : ℚ)]
      | _ => x

/-- No quadrature elements. -/
def rules : Rules ℚ := ⟨fun _ => .points .plain [[0]] [⟨0, 1⟩], fun x y => decide (x = y)⟩

/-- The cell of the entities of a dimension. -/
def sub : Dim → Cell
  | .int k => .simplex k
  | .tup _ => .simplex 0

/-- The squares on the entities. -/
def terms (κ : ℚ) (l : Leaf) (dim : Dim) (k j : Nat) : List (ℚ × List Nat) :=
  match dim with
  | .int 0 => [(((coef κ l j).1 + (coef κ l j).2 * k) ^ 2, [])]
  | _ => if (coef κ l j).2 = 0 then [((coef κ l j).1 ^ 2, [0])]
    else [((coef κ l j).1 ^ 2, [0]), (2 * (coef κ l j).1 * (coef κ l j).2, [1]), ((coef κ l j).2 ^ 2, [2])]

theorem top1 : (Cell.simplex 1).topology = [(.int 0, 2), (.int 1, 1)] := by decide

theorem value (κ : ℚ) {l : Leaf} (_ : l.cell = .simplex 1) (ent : Dim × Nat) (x : List ℚ) (i : List Nat) (z : List Nat) :
    basisValue (leafVals (fiat κ) rules) (.leaf l) (List.replicate (Cell.simplex 1).spatialDim 0) ent x i z =
      (coef κ l (i.headD 0)).1 + (coef κ l (i.headD 0)).2 * (match ent with
        | (.int 0, k) => (k : ℚ)
        | _ => x.getD 0 0) := by
  obtain ⟨d, k⟩ := ent
  have : ∀ a b : ℚ, ∀ y : List ℚ, evalAt y (partialD 0 [0] (C a + C b * X 0)) = a + b * y.getD 0 0 := by
    intro a b y
    simp [partialD, evalAt]
  simp only [basisValue, leafVals, leafFn, fiat, polyFiat, Cell.spatialDim, List.replicate, this]
  congr 2
  rcases d with (_ | d) | _ <;> rfl

theorem degree_le (κ : ℚ) {l : Leaf} (hl : l = cg1 ∨ l = dg0) (i : Nat) :
    (C (coef κ l i).1 + C (coef κ l i).2 * X 0 : MvPolynomial ℕ ℚ).totalDegree ≤ l.degree := by
  rcases hl with rfl | rfl
  · refine (totalDegree_add _ _).trans (max_le ?_ ?_)
    · rw [totalDegree_C]; exact Nat.zero_le _
    · refine (totalDegree_mul _ _).trans ?_
      rw [totalDegree_C, totalDegree_X]
      exact Nat.le_refl _
  · have : (coef κ dg0 i).2 = 0 := by cases i <;> rfl
    rw [this, C_0, zero_mul, add_zero, totalDegree_C]
    exact Nat.zero_le _

theorem integrable (κ : ℚ) {l : Leaf} (hl : l = cg1 ∨ l = dg0) :
    Integrable (basisSem (fiat κ) rules) quad 3 (.leaf l) (.simplex 1) (.int (2 * l.degree)) sub where
  shaped := by simp [Shaped]
  cell := by rcases hl with rfl | rfl <;> rfl
  value := ⟨[], by rcases hl with rfl | rfl <;> rfl⟩
  dofs := by
    rcases hl with rfl | rfl
    · exact ⟨_, rfl, good_cg1.1⟩
    · exact ⟨_, rfl, good_dg0.1⟩
  degree := ⟨.leaf l.degree, by rcases hl with rfl | rfl <;> rfl, rfl⟩
  rules := quad_exact
  entity := by
    rw [top1]
    intro p hp
    fin_cases hp <;> rfl
  good := by
    rw [top1]
    intro p hp
    have hd : l.degree ≤ 1 := by rcases hl with rfl | rfl <;> decide
    have h1 : (2 * (l.degree : ℤ)) ≤ 3 := by omega
    rcases List.mem_cons.1 hp with rfl | hp
    · simp only [sub, GoodDegree]
      exact ⟨by omega, h1, .inr ⟨_, rfl⟩⟩
    · have hp := List.mem_singleton.1 hp
      subst hp
      simp only [sub, GoodDegree]
      exact ⟨by omega, h1, .inl ⟨rfl, rfl⟩⟩
  admits := by
    rw [top1]
    intro p hp n q n' hq k hk
    have hok : ∀ cls pts idx ent, pts ≠ [] → q.pointSet = .points cls pts idx →
        Admits (basisSem (fiat κ) rules) 0 (.leaf l) q.pointSet ent := by
      intro cls pts idx ent hne h
      simp only [Admits, h]
      refine ⟨rfl, ⟨⟨fun _ _ _ h => (by cases h), by simpa [PSet.pts] using hne, ?_, ?_, .inl rfl⟩, fun _ cls h => (by cases h)⟩⟩
      · exact fiatPoly_of rfl (fun _ i _ => C (coef κ l i).1 + C (coef κ l i).2 * X 0) _ (fun _ _ _ _ => rfl)
          (fun _ i _ => degree_le κ hl i) (fun _ _ _ _ _ => rfl)
      · rcases hl with rfl | rfl <;> decide
    rcases List.mem_cons.1 hp with rfl | hp
    · have hq' : makeQuadrature quad "default" (sub (.int 0)) (.int (2 * l.degree)) n =
          .ok (.rule (.points .plain [[]] [⟨n, 1⟩]) [1], n + 1) := by rcases hl with rfl | rfl <;> rfl
      rw [hq'] at hq
      cases hq
      exact hok _ _ _ _ (by simp) rfl
    · have hp := List.mem_singleton.1 hp
      subst hp
      rcases hl with rfl | rfl
      · have hq' : makeQuadrature quad "default" (sub (.int 1)) (.int (2 * cg1.degree)) n =
            .ok (.rule (.points .gaussLegendre (exF.gauss 2).1 [⟨n, 3⟩]) (exF.gauss 2).2, n + 1) := by rfl
        rw [hq'] at hq
        cases hq
        exact hok _ _ _ _ (by simp [exF]) rfl
      · have hq' : makeQuadrature quad "default" (sub (.int 1)) (.int (2 * dg0.degree)) n =
            .ok (.rule (.points .gaussLegendre (exF.gauss 1).1 [⟨n, 1⟩]) (exF.gauss 1).2, n + 1) := by rfl
        rw [hq'] at hq
        cases hq
        exact hok _ _ _ _ (by simp [exF]) rfl

theorem cases_top {P : Dim → Nat → Prop} (h0 : ∀ k < 2, P (.int 0) k) (h1 : P (.int 1) 0) :
    ∀ dim n, (dim, n) ∈ (Cell.simplex 1).topology → ∀ k < n, P dim k := by
  rw [top1]
  intro dim n hd k hk
  rcases List.mem_cons.1 hd with hd | hd
  · cases hd; exact h0 k hk
  · have := List.mem_singleton.1 hd
    cases this
    have : k = 0 := by omega
    subst this
    exact h1

theorem head_unravel {l : Leaf} {j : Nat} (hj : j < (Elem.leaf l).spaceDim) :
    (unravel (Elem.leaf l).indexShape j).headD 0 = j := by
  simp only [Elem.indexShape, unravel, List.headD_cons, List.prod_nil, Nat.div_one, Nat.mod_eq_of_lt (show j < l.fns.length from hj)]

theorem squares (κ : ℚ) {l : Leaf} (hl : l = cg1 ∨ l = dg0) :
    SquarePoly (leafVals (fiat κ) rules) (.leaf l) (.simplex 1) (.int (2 * l.degree)) sub (terms κ l) where
  within := by
    apply cases_top (P := fun dim k => ∀ j < (Elem.leaf l).spaceDim, ∀ t ∈ terms κ l dim k j,
      t.2.length = (sub dim).spatialDim ∧ Within (sub dim) (.int (2 * l.degree)) t.2)
    · intro k hk j hj t ht
      have := List.mem_singleton.1 ht
      subst this
      exact ⟨rfl, by simp [Within, sub]⟩
    · intro j hj t ht
      rcases hl with rfl | rfl
      · simp only [terms] at ht
        split at ht
        · have := List.mem_singleton.1 ht
          subst this
          exact ⟨rfl, by simp [Within, sub]⟩
        · simp only [List.mem_cons, List.not_mem_nil, or_false] at ht
          rcases ht with rfl | rfl | rfl <;> exact ⟨rfl, by simp [Within, sub, cg1]⟩
      · have : (coef κ dg0 j).2 = 0 := by cases j <;> rfl
        simp only [terms, this, if_true, List.mem_singleton] at ht
        subst ht
        exact ⟨rfl, by simp [Within, sub]⟩
  value := by
    have hc : l.cell = .simplex 1 := by rcases hl with rfl | rfl <;> rfl
    have hv : vshape (.leaf l) = [] := by rcases hl with rfl | rfl <;> rfl
    apply cases_top (P := fun dim k => ∀ j < (Elem.leaf l).spaceDim, ∀ x, x.length = (sub dim).spatialDim →
      squareSum (leafVals (fiat κ) rules) (.leaf l) (.simplex 1) (dim, k) (unravel (Elem.leaf l).indexShape j) x =
        polyVal (terms κ l dim k j) x)
    · intro k hk j hj x hx
      simp only [squareSum, hv, ndindex, List.map_cons, List.map_nil, value κ hc, head_unravel hj]
      simp [polyVal, terms, monoVal]
    · intro j hj x hx
      have hx' : x.length = 1 := hx
      match x, hx' with
      | [y], _ =>
        simp only [squareSum, hv, ndindex, List.map_cons, List.map_nil, value κ hc, head_unravel hj]
        by_cases h0 : (coef κ l j).2 = 0
        · simp [polyVal, terms, monoVal, h0]
        · simp [polyVal, terms, monoVal, h0]
          ring

/-- The functions on the entities. -/
def linear (κ : ℚ) (l : Leaf) (dim : Dim) (k j : Nat) (_ : List Nat) : List (ℚ × List Nat) :=
  match dim with
  | .int 0 => [((coef κ l j).1 + (coef κ l j).2 * k, [])]
  | _ => if (coef κ l j).2 = 0 then [((coef κ l j).1, [0])] else [((coef κ l j).1, [0]), ((coef κ l j).2, [1])]

theorem degrees (κ : ℚ) {l : Leaf} (hl : l = cg1 ∨ l = dg0) :
    DegreePoly (leafVals (fiat κ) rules) (.leaf l) (.simplex 1) (.leaf l.degree) sub (linear κ l) where
  within := by
    apply cases_top (P := fun dim k => ∀ j < (Elem.leaf l).spaceDim, ∀ z ∈ ndindex (vshape (.leaf l)),
      ∀ t ∈ linear κ l dim k j z,
      t.2.length = (sub dim).spatialDim ∧ Within (sub dim) (Spec.degreeOf (.leaf l.degree)) t.2)
    · intro k hk j hj z hz t ht
      have := List.mem_singleton.1 ht
      subst this
      exact ⟨rfl, by simp [Within, sub, Spec.degreeOf]⟩
    · intro j hj z hz t ht
      rcases hl with rfl | rfl
      · simp only [linear] at ht
        split at ht
        · have := List.mem_singleton.1 ht
          subst this
          exact ⟨rfl, by simp [Within, sub, Spec.degreeOf]⟩
        · simp only [List.mem_cons, List.not_mem_nil, or_false] at ht
          rcases ht with rfl | rfl <;> exact ⟨rfl, by simp [Within, sub, cg1, Spec.degreeOf]⟩
      · have : (coef κ dg0 j).2 = 0 := by cases j <;> rfl
        simp only [linear, this, if_true, List.mem_singleton] at ht
        subst ht
        exact ⟨rfl, by simp [Within, sub, Spec.degreeOf]⟩
  value := by
    have hc : l.cell = .simplex 1 := by rcases hl with rfl | rfl <;> rfl
    apply cases_top (P := fun dim k => ∀ j < (Elem.leaf l).spaceDim, ∀ z ∈ ndindex (vshape (.leaf l)), ∀ x,
      x.length = (sub dim).spatialDim →
      basisValue (leafVals (fiat κ) rules) (.leaf l) (List.replicate (Cell.simplex 1).spatialDim 0) (dim, k) x
        (unravel (Elem.leaf l).indexShape j) z = polyVal (linear κ l dim k j z) x)
    · intro k hk j hj z hz x hx
      simp only [value κ hc, head_unravel hj]
      simp [polyVal, linear, monoVal]
    · intro j hj z hz x hx
      have hx' : x.length = 1 := hx
      match x, hx' with
      | [y], _ =>
        simp only [value κ hc, head_unravel hj]
        by_cases h0 : (coef κ l j).2 = 0
        · simp [polyVal, linear, monoVal, h0]
        · simp [polyVal, linear, monoVal, h0]

/-- `C70_degree` applies to linear elements. -/
example := C70_degree (integrable 1 (.inl rfl : cg1 = cg1 ∨ _)) rfl (degrees 1 (.inl rfl)) 0

theorem gap {l : Leaf} (hl : l = cg1 ∨ l = dg0) : ∀ dim n, (dim, n) ∈ (Cell.simplex 1).topology → ∀ k < n,
    ∀ j < (Elem.leaf l).spaceDim, NonVanishing (leafVals (fiat 1) rules) (.leaf l) (.simplex 1) (dim, k) j →
      1 / 10 ^ 8 < polyInt (sub dim) (terms 1 l dim k j) := by
  have hc : l.cell = .simplex 1 := by rcases hl with rfl | rfl <;> rfl
  apply cases_top (P := fun dim k => ∀ j < (Elem.leaf l).spaceDim,
    NonVanishing (leafVals (fiat 1) rules) (.leaf l) (.simplex 1) (dim, k) j →
      1 / 10 ^ 8 < polyInt (sub dim) (terms 1 l dim k j))
  · rintro k hk j hj ⟨x, z, _, _, hne⟩
    rw [value 1 hc, head_unravel hj] at hne
    have hk' : k = 0 ∨ k = 1 := by omega
    rcases hl with rfl | rfl
    · have hj' : j = 0 ∨ j = 1 := by have : j < 2 := hj; omega
      rcases hk' with rfl | rfl <;> rcases hj' with rfl | rfl <;>
        simp_all [coef, cg1, polyInt, terms, moment, sub, Nat.factorial] <;> norm_num
    · have hj' : j = 0 := by have : j < 1 := hj; omega
      subst hj'
      rcases hk' with rfl | rfl <;> simp [coef, dg0, polyInt, terms, moment, sub, Nat.factorial] <;> norm_num
  · rintro j hj _
    rcases hl with rfl | rfl
    · have hj' : j = 0 ∨ j = 1 := by have : j < 2 := hj; omega
      rcases hj' with rfl | rfl <;> simp [coef, cg1, polyInt, terms, moment, sub, Nat.factorial] <;> norm_num
    · have hj' : j = 0 := by have : j < 1 := hj; omega
      subst hj'
      simp [coef, dg0, polyInt, terms, moment, sub, Nat.factorial] <;> norm_num

/-- `C70_listed`, `C70_sound` and `C70_base_partial` apply to linear and constant elements. -/
example := C70_listed (integrable 1 (.inl rfl : cg1 = cg1 ∨ _)) (squares 1 (.inl rfl)) 0
example := C70_sound (integrable 1 (.inl rfl : cg1 = cg1 ∨ _)) (squares 1 (.inl rfl)) 0
theorem base {l : Leaf} (hl : l = cg1 ∨ l = dg0) : ∀ c, (Elem.leaf l).cell = .ok c → ∀ m,
    Yields (baseSupport quad (basisInterp (fiat 1) rules) (.leaf l)) m
      (SupportOf (leafVals (fiat 1) rules) (.leaf l) c) := by
  intro c hc m
  have : c = .simplex 1 := by rcases hl with rfl | rfl <;> cases hc <;> rfl
  subst this
  exact C70_base_partial (integrable 1 hl) (squares 1 hl) (gap hl) m

/-- `Q1` on the quadrilateral and an element that is linear in one direction, as the components of a vector. -/
def tree : Elem := .enriched [.mixedSub (.flattened (.tensorProduct [.leaf cg1, .leaf cg1])) 2 0,
  .mixedSub (.flattened (.tensorProduct [.leaf cg1, .leaf dg0])) 2 1]

/-- `C70_tree` applies to it. -/
example := C70_tree (φ := leafVals (fiat 1) rules) (F := quad) (I := basisInterp (fiat 1) rules) tree .quad [2] (by
    have h1 := base (l := cg1) (.inl rfl)
    have h2 := base (l := dg0) (.inr rfl)
    have hq : ∀ a b : Leaf, a.cell = .simplex 1 → b.cell = .simplex 1 → ∀ c,
        (Elem.tensorProduct [.leaf a, .leaf b]).cell = .ok c → IsCube c := by
      intro a b ha hb c hc
      simp only [Elem.cell, Elem.cellL, ha, hb] at hc
      cases hc
      simp [IsCube, IsCubeL]
    simp only [tree, Composed, ComposedL]
    exact ⟨⟨⟨⟨h1, h1, trivial⟩, hq _ _ rfl rfl⟩, [], rfl, by decide⟩,
      ⟨⟨⟨h1, h2, trivial⟩, hq _ _ rfl rfl⟩, [], rfl, by decide⟩, trivial⟩) rfl rfl 0

/-- ... and to H(div) and H(curl) wrappers. -/
example := C70_tree (φ := leafVals (fiat 1) rules) (F := quad) (I := basisInterp (fiat 1) rules)
  (.hdiv (.tensorProduct [.leaf cg1, .leaf dg0])) (.prod [.simplex 1, .simplex 1]) [2] (by
    simp only [Composed, ComposedL]
    refine ⟨⟨base (.inl rfl), base (.inr rfl), trivial⟩, [], _, rfl, rfl, rfl, ?_, ?_⟩
    · intro neg ix h
      simp only [List.mem_cons, Comp.entry.injEq, reduceCtorEq, List.not_mem_nil, or_false, or_self] at h
      rw [h.2]; exact .nil
    · intro ix h
      cases h
      exact ⟨_, List.mem_cons_self⟩) rfl rfl 0
example := C70_tree (φ := leafVals (fiat 1) rules) (F := quad) (I := basisInterp (fiat 1) rules)
  (.hcurl (.tensorProduct [.leaf cg1, .leaf dg0])) (.prod [.simplex 1, .simplex 1]) [2] (by
    simp only [Composed, ComposedL]
    refine ⟨⟨base (.inl rfl), base (.inr rfl), trivial⟩, [], _, rfl, rfl, rfl, ?_, ?_⟩
    · intro neg ix h
      simp [List.replicate, Cell.spatialDim, Cell.spatialDimL] at h
      rw [h.2]; exact .nil
    · intro ix h
      cases h
      exact ⟨false, by simp⟩) rfl rfl 0

end FInAT.Props.SupEx

namespace FInAT.Props

open FInAT Spec SupEx

/-- C70 fails for small functions: for piecewise constants scaled by `1e-5` the only function is missing on the cell,
although it is not zero. -/
theorem C70_small_function :
    Yields (baseSupport quad (basisInterp (fiat (1 / 10 ^ 5)) rules) (.leaf dg0)) 0 fun d =>
      dofsOn d (.int 1) 0 = [] ∧
      NonVanishing (leafVals (fiat (1 / 10 ^ 5)) rules) (.leaf dg0) (.simplex 1) (.int 1, 0) 0 := by
  obtain ⟨d, m, h1, h2, h3⟩ := C70_listed (integrable (1 / 10 ^ 5) (.inr rfl : dg0 = cg1 ∨ _)) (squares _ (.inr rfl)) 0
  refine ⟨d, m, h1, ?_, ?_⟩
  · rw [h3 (.int 1) 1 (by rw [top1]; simp) 0 Nat.one_pos, List.filter_eq_nil_iff]
    intro j hj
    have hj' : j = 0 := by have : j < 1 := List.mem_range.1 hj; omega
    subst hj'
    rw [decide_eq_true_eq, not_lt]
    simp [coef, dg0, polyInt, terms, moment, sub, Nat.factorial]
    norm_num
  · refine ⟨[0], [], by simp [InEntity], .nil, ?_⟩
    rw [value _ rfl]
    simp [coef, dg0, unravel, Elem.indexShape]

section
variable {K : Type} [Field K] [LinearOrder K]

/-- **C70.** The query for one dimension, `entity_support_dofs(elem, entity_dim)`: for a dimension of the cell a dictionary with all
entities of that dimension and exactly the functions that do not vanish on them, and `KeyError` for any other dimension. -/
theorem C70_query {φ : LeafVals K} {F : FiatQuad K} {I : Interp K (PSet K)} {e : Elem} {c : Cell} {m : Nat}
    (h : Yields (supportDofs F I e) m (SupportOf φ e c)) (dim : Dim) :
    (∀ n, (dim, n) ∈ c.topology → Yields (entitySupportDofs F I e dim) m fun ents =>
      (ents.map Prod.fst).Perm (List.range n) ∧
      ∀ k < n, ∃ l, ents.get? k = some l ∧ l.Nodup ∧ ∀ j, j ∈ l ↔ j < e.spaceDim ∧ NonVanishing φ e c (dim, k) j) ∧
    (dim ∉ c.topology.map Prod.fst → entitySupportDofs F I e dim m = .error .keyError) := by
  obtain ⟨d, m', hd, hs⟩ := h
  have hrun : ∀ r, d.get dim = r → entitySupportDofs F I e dim m = r.map fun x => (x, m') := by
    rintro r rfl
    unfold entitySupportDofs
    show (supportDofs F I e m).bind _ = _
    rw [hd]
    show (liftE (d.get dim) : M _) m' = _
    cases d.get dim <;> rfl
  constructor
  · intro n hn
    obtain ⟨ents, h1, h2⟩ := hs.covers.2 _ hn
    have hnd : d.keys.Nodup := (hs.covers.1.nodup_iff).2 c.topology_nodup
    have hg := Dict.get?_eq_some_of_mem hnd h1
    refine ⟨ents, m', ?_, h2, fun k hk => ?_⟩
    · rw [hrun (.ok ents) (by unfold Dict.get; rw [hg])]; rfl
    · have : (ents.get? k).isSome := Dict.get?_isSome_iff.2 (h2.mem_iff.2 (List.mem_range.2 hk))
      obtain ⟨l, hl⟩ := Option.isSome_iff_exists.1 this
      have hdof : dofsOn d dim k = l := by simp [dofsOn, hg, hl]
      refine ⟨l, hl, ?_, ?_⟩
      · rw [← hdof]; exact hs.nodup dim n hn k hk
      · rw [← hdof]; exact hs.listed dim n hn k hk
  · intro hn
    have hg : d.get? dim = none := by
      rw [← Option.not_isSome_iff_eq_none]
      exact fun h => hn (hs.covers.1.mem_iff.1 (Dict.get?_isSome_iff.1 h))
    rw [hrun (.error .keyError) (by unfold Dict.get; rw [hg])]; rfl

/-- C70 fails for vectors on nested products: `numpy.array` does not accept the degree `((a, b), c)`, so `entity_support_dofs`
raises `ValueError` although the scalar element has support dofs. -/
theorem C70_ragged (F : FiatQuad K) (I : Interp K (PSet K)) (f g h : Leaf) (hf : f.cell = .simplex 1) (hg : g.cell = .simplex 1)
    (hh : h.cell = .simplex 1) (hv : f.valueShape = [] ∧ g.valueShape = [] ∧ h.valueShape = []) (shape : List Nat) (t : Bool) (m : Nat) :
    supportDofs F I (.tensorFE (.tensorProduct [.tensorProduct [.leaf f, .leaf g], .leaf h]) shape t) m = .error .valueError := by
  set e : Elem := .tensorFE (.tensorProduct [.tensorProduct [.leaf f, .leaf g], .leaf h]) shape t with he
  have hc : e.cell = .ok (.prod [.prod [.simplex 1, .simplex 1], .simplex 1]) := by
    simp [he, Elem.cell, Elem.cellL, hf, hg, hh, bind, Except.bind, pure, Except.pure]
  have hvs : e.valueShape = .ok shape := by
    simp [he, Elem.valueShape, Elem.valueShapeL, Elem.prodValueShape, hv, bind, Except.bind, pure, Except.pure]
  have hd : e.degree = .ok (.node [.node [.leaf f.degree, .leaf g.degree], .leaf h.degree]) := by
    simp [he, Elem.degree, Elem.degreeL, bind, Except.bind, pure, Except.pure]
  have ht : (Cell.prod [.prod [.simplex 1, .simplex 1], .simplex 1]).topology =
      (.tup [.tup [.int 0, .int 0], .int 0], 8) :: (Cell.prod [.prod [.simplex 1, .simplex 1], .simplex 1]).topology.tail := by
    decide +kernel
  have hsub : (Cell.prod [.prod [.simplex 1, .simplex 1], .simplex 1]).subelement (.tup [.tup [.int 0, .int 0], .int 0]) =
      .ok (.prod [.prod [.simplex 0, .simplex 0], .simplex 0]) := by
    simp [Cell.subelement, Cell.subelementL, bind, Except.bind, pure, Except.pure]
  have hdd : DegTree.double (.node [.node [.leaf f.degree, .leaf g.degree], .leaf h.degree]) = .error .valueError := by
    simp [DegTree.double, DegTree.arrayShape, DegTree.arrayShapeL, bind, Except.bind, pure, Except.pure]
  rw [he, supportDofs, ← he]
  unfold baseSupport
  rw [hc, hvs, hd]
  have hl : ∀ {α β : Type} (a : α) (k : α → M β), (liftE (.ok a) >>= k) = k a := fun _ _ => rfl
  rw [hl, ht, List.mapM_cons]
  simp only [hsub, hdd]
  rfl

end

/-- The query for the vertices and for the edges of the square. -/
example := C70_query (φ := leafVals (fiat 1) rules) (F := quad) (I := basisInterp (fiat 1) rules) (e := .leaf cg1)
  (c := .simplex 1) (m := 0) (by rw [supportDofs]; exact base (.inl rfl) _ rfl 0) (.int 0)

/-- Vectors of trilinear functions on a product of a square and an interval. -/
example := C70_ragged quad (basisInterp (fiat 1) rules) cg1 cg1 cg1 rfl rfl rfl ⟨rfl, rfl, rfl⟩ [3] false 0

end FInAT.Props
