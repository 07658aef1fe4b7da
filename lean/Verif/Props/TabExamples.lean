import Verif.Props.Leaves

/-!
# The hypotheses of C12-C18, C40 and C58 are met

A concrete FIAT (Lagrange and constant elements on the interval, given by their polynomials over the
integers), concrete points, and the nested elements `q2`, `vec` of `Verif/Props/Dofs.lean`.
-/

namespace FInAT.Props

open FInAT Spec Elem MvPolynomial

/-- The basis functions of CG1, CG2 (as FIAT numbers them: vertices, then midpoint) and DG0. -/
noncomputable def exPoly (l : Leaf) (i : Nat) (_ : List Nat) : MvPolynomial ℕ ℤ :=
  match l.id, i with
  | 0, 0 => 1 - X 0
  | 0, 1 => X 0
  | 1, 0 => (1 - X 0) * (1 - 2 * X 0)
  | 1, 1 => X 0 * (2 * X 0 - 1)
  | 1, 2 => 4 * X 0 * (1 - X 0)
  | 2, 0 => 1
  | _, _ => 0

/-- Vertices of the interval are the points 0 and 1. -/
def exEmb (_ : Leaf) (ent : Dim × Nat) (x : List ℤ) : List ℤ := match ent with
  | (.int 0, k) => [(k : ℤ)]
  | _ => x

/-- The example FIAT. -/
noncomputable def exFiat : Fiat ℤ := polyFiat exPoly exEmb

/-- No quadrature elements in the examples. -/
def exRules : Rules ℤ := ⟨fun _ => .points .plain [[0]] [⟨0, 1⟩], fun x y => decide (x = y)⟩

theorem deg_lin (a b : ℤ) : (C a + C b * X 0 : MvPolynomial ℕ ℤ).totalDegree ≤ 1 := by
  refine (totalDegree_add _ _).trans (max_le ?_ ?_)
  · rw [totalDegree_C]; exact Nat.zero_le 1
  · refine (totalDegree_mul _ _).trans ?_
    rw [totalDegree_C, totalDegree_X]

theorem exPoly_lin (l : Leaf) (hl : l = cg1 ∨ l = cg2 ∨ l = dg0) (i : Nat) (z : List Nat) :
    (∃ a b c d : ℤ, exPoly l i z = (C a + C b * X 0) * (C c + C d * X 0) ∧ l.degree = 2) ∨
    (∃ a b : ℤ, exPoly l i z = C a + C b * X 0 ∧ (l.degree = 0 → b = 0)) := by
  have h1 : (1 : MvPolynomial ℕ ℤ) - X 0 = C 1 + C (-1) * X 0 := by simp; ring
  have h2 : (1 : MvPolynomial ℕ ℤ) - 2 * X 0 = C 1 + C (-2) * X 0 := by simp; ring
  have h3 : (2 : MvPolynomial ℕ ℤ) * X 0 - 1 = C (-1) + C 2 * X 0 := by simp; ring
  have h4 : (4 : MvPolynomial ℕ ℤ) * X 0 = C 0 + C 4 * X 0 := by simp
  have h5 : (X 0 : MvPolynomial ℕ ℤ) = C 0 + C 1 * X 0 := by simp
  have h0 : ∀ z, (∃ a b : ℤ, (0 : MvPolynomial ℕ ℤ) = C a + C b * X 0 ∧ (z = 0 → b = 0)) :=
    fun _ => ⟨0, 0, by simp, fun _ => rfl⟩
  rcases hl with rfl | rfl | rfl
  · match i with
    | 0 => exact .inr ⟨1, -1, h1, by decide⟩
    | 1 => exact .inr ⟨0, 1, h5, by decide⟩
    | i + 2 => exact .inr (h0 _)
  · match i with
    | 0 => exact .inl ⟨1, -1, 1, -2, by rw [← h1, ← h2]; rfl, rfl⟩
    | 1 => exact .inl ⟨0, 1, -1, 2, by rw [← h5, ← h3]; rfl, rfl⟩
    | 2 => exact .inl ⟨0, 4, 1, -1, by rw [← h4, ← h1]; rfl, rfl⟩
    | i + 3 => exact .inr (h0 _)
  · match i with
    | 0 => exact .inr ⟨1, 0, by simp [exPoly, dg0], fun _ => rfl⟩
    | i + 1 => exact .inr (h0 _)

theorem exPoly_degree (l : Leaf) (hl : l = cg1 ∨ l = cg2 ∨ l = dg0) (i : Nat) (z : List Nat) :
    (exPoly l i z).totalDegree ≤ l.degree := by
  rcases exPoly_lin l hl i z with ⟨a, b, c, d, h, hd⟩ | ⟨a, b, h, hd⟩
  · rw [h, hd]
    refine (totalDegree_mul _ _).trans ?_
    have := deg_lin a b
    have := deg_lin c d
    omega
  · rw [h]
    by_cases h0 : l.degree = 0
    · rw [hd h0, C_0, zero_mul, add_zero, totalDegree_C]; exact Nat.zero_le _
    · have := deg_lin a b; omega

theorem lin_mem (a b : ℤ) : C a + C b * X 0 ∈ PolyLt ℤ 1 := by
  have hX : (X 0 : MvPolynomial ℕ ℤ) ∈ PolyLt ℤ 1 := X_mem_supported.2 (by simp)
  have hC : ∀ a : ℤ, (C a : MvPolynomial ℕ ℤ) ∈ PolyLt ℤ 1 := fun a => Subalgebra.algebraMap_mem _ a
  exact add_mem (hC a) (mul_mem (hC b) hX)

theorem exPoly_leaf (l : Leaf) (hl : l = cg1 ∨ l = cg2 ∨ l = dg0) : LeafPoly exPoly l := by
  intro i z
  have hc : l.cell.spatialDim = 1 := by rcases hl with rfl | rfl | rfl <;> rfl
  rw [hc]
  rcases exPoly_lin l hl i z with ⟨a, b, c, d, h, _⟩ | ⟨a, b, h, _⟩
  · rw [h]; exact mul_mem (lin_mem a b) (lin_mem c d)
  · rw [h]; exact lin_mem a b

/-- The conditions on leaves for tabulating at unstructured points. -/
theorem exLeaf (order : Nat) (l : Leaf) (hl : l = cg1 ∨ l = cg2 ∨ l = dg0) :
    PlainLeafOK exFiat order l ∧ LeafIsPoly (leafVals exFiat exRules) exPoly l := by
  refine ⟨polyFiat_ok order (exPoly_degree l hl) ?_, polyFiat_isPoly exRules (exPoly_leaf l hl) ?_⟩
  · rcases hl with rfl | rfl | rfl <;> decide
  · intro x
    rcases hl with rfl | rfl | rfl <;> rfl

theorem cubes_vec : Cubes vec := by
  refine ⟨⟨⟨trivial, trivial, trivial⟩, ?_⟩, ⟨⟨trivial, trivial, trivial⟩, ?_⟩,
    ⟨⟨trivial, trivial, trivial⟩, ?_⟩, trivial⟩ <;>
  · intro c hc
    cases hc
    exact ⟨Nat.le_refl 1, Nat.le_refl 1, trivial⟩

theorem shaped_vec : Shaped vec := by
  simp only [vec, q2, Shaped, List.mem_cons, List.not_mem_nil, or_false, forall_eq_or_imp, forall_eq]
  simp

theorem leaves_vec (order : Nat) :
    AllLeaves (fun l => PlainLeafOK exFiat order l ∧ LeafIsPoly (leafVals exFiat exRules) exPoly l) vec := by
  have h1 := exLeaf order cg1 (.inl rfl)
  have h2 := exLeaf order cg2 (.inr (.inl rfl))
  have h0 := exLeaf order dg0 (.inr (.inr rfl))
  simp only [vec, q2, AllLeaves, AllLeavesL]
  exact ⟨⟨h2, h2, trivial⟩, ⟨h1, h0, trivial⟩, ⟨h0, h1, trivial⟩, trivial⟩

/-- Three points of the square. -/
def exPts : PSet ℤ := .points .plain [[0, 0], [1, 0], [2, 3]] [⟨0, 3⟩]

theorem exPts_wf : exPts.WF 1 := by
  simp only [exPts, PSet.WF]
  exact ⟨by simp, by decide, 2, by simp⟩

theorem exPts_plain : PlainPoints exPts 2 := ⟨_, _, rfl, by simp, by simp⟩

theorem isEntity_quad : IsEntity .quad (Cell.quad.dimension, 0) :=
  ⟨1, Cell.dimension_mem _, by simp⟩

/-- C14 on a vector-valued enriched element with 26 basis functions, for derivatives of any order. -/
example (order : Nat) : Yields (evaluate (basisInterp exFiat exRules) vec order exPts none) 1 fun T =>
    IsTable exPts.Valid T 2 order [2, 13] [2] fun α ρ i z =>
      evalAt (exPts.pointAt ρ) (partialD 0 α (treePoly exPoly vec i z)) :=
  C14_derivative_of_product exFiat exRules exPoly vec .quad [2] order 1 exPts shaped_vec cubes_vec
    (leaves_vec order) cell_vec rfl exPts_wf exPts_plain

theorem leaves_of_vec (order : Nat) (e : Elem) (h : ∀ (L : Leaf → Prop), AllLeaves L vec → AllLeaves L e) :
    AllLeaves (PlainLeafOK exFiat order) e :=
  h _ (AllLeaves.imp (fun _ h => h.1) vec (leaves_vec order))

/-- The base of `vec`: an enriched element with three summands. -/
def enr : List Elem := [q2, .flattened (.tensorProduct [.leaf cg1, .leaf dg0]),
    .discontinuous (.flattened (.tensorProduct [.leaf dg0, .leaf cg1]))]

theorem shaped_enr : ∀ e ∈ enr, Shaped e := by
  have h := shaped_vec
  simp only [vec] at h
  rw [Shaped, Shaped] at h
  exact h.1

/-- Admissibility (C12, C13, C15) on the cell and on a facet of the quadrilateral. -/
theorem admits_enr (order : Nat) : Admits (basisSem exFiat exRules) order (.enriched enr) exPts
    (Cell.quad.dimension, 0) :=
  admits_plain exFiat exRules order (.enriched enr) exPts _ .quad cubes_vec
    (leaves_of_vec order _ fun _ h => h) rfl isEntity_quad exPts_plain

/-- Two points of an edge. -/
def edgePts : PSet ℤ := .points .plain [[0], [5]] [⟨0, 2⟩]

theorem admits_enr_edge (order : Nat) : Admits (basisSem exFiat exRules) order (.enriched enr) edgePts (.int 1, 2) :=
  admits_plain exFiat exRules order (.enriched enr) edgePts _ .quad cubes_vec
    (leaves_of_vec order _ fun _ h => h) rfl ⟨4, by decide, by decide⟩
    ⟨_, _, rfl, by simp, by simp; decide⟩

/-- C12 applies. -/
example := C12_enriched_tabulation (basisSem exFiat exRules) enr
  (shaped_enr) 3 exPts none .quad [] 1 1 exPts_wf (Nat.le_refl 1) rfl rfl
  (admits_enr 3)
example := C12_enriched_tabulation (basisSem exFiat exRules) enr
  (shaped_enr) 3 edgePts (some (.int 1, 2)) .quad [] 1 1
  (by simp only [edgePts]; exact ⟨by simp, by decide, 1, by simp⟩) (Nat.le_refl 1) rfl rfl
  (admits_enr_edge 3)

/-- C13 applies: the enriched element as components 1 of a mixed vector of three. -/
example := C13_mixed_values (basisSem exFiat exRules) (.enriched enr) 3 1
  (by simp only [Shaped]; exact ⟨by simpa only [Shaped] using shaped_enr, by decide, [], rfl, by decide⟩)
  3 exPts none .quad [] 1 1 exPts_wf (Nat.le_refl 1) rfl rfl (admits_enr 3)

/-- C13: a mixed element of a vector and two scalars. -/
example : mkMixed [vec, q2, q2] = .ok (mkEnriched [.mixedSub vec 4 0, .mixedSub q2 4 2, .mixedSub q2 4 3]) :=
  C13_mixed_construction [vec, q2, q2] [[2], [], []] rfl

/-- C15 applies. -/
example := C15_component_basis (basisSem exFiat exRules) (.enriched enr) [2, 2] true
  (by simpa only [Shaped] using shaped_enr) (by decide) 3 exPts none .quad [] 1 1 exPts_wf
  (Nat.le_refl 1) rfl rfl (admits_enr 3)

/-- C14 (tables), C16 and C17 apply to CG1 x DG0. -/
theorem admits_rt (order : Nat) : Admits (basisSem exFiat exRules) order
    (.tensorProduct [.leaf cg1, .leaf dg0]) exPts ((Cell.prod [.simplex 1, .simplex 1]).dimension, 0) :=
  admits_plain exFiat exRules order _ exPts _ (.prod [.simplex 1, .simplex 1]) ⟨trivial, trivial, trivial⟩
    ⟨(exLeaf order cg1 (.inl rfl)).1, (exLeaf order dg0 (.inr (.inr rfl))).1, trivial⟩ rfl
    ⟨1, Cell.dimension_mem _, by simp⟩ exPts_plain

theorem shaped_rt : Shaped (.tensorProduct [.leaf cg1, .leaf dg0]) := by
  simp only [Shaped, List.mem_cons, List.not_mem_nil, or_false, forall_eq_or_imp, forall_eq]
  simp

theorem pair_rt : FormPair (.leaf cg1) (.leaf dg0) (.simplex 1) 0 1 [] :=
  ⟨rfl, rfl, .inl rfl, rfl, rfl, by decide, by decide, rfl, .inl ⟨rfl, rfl, by decide⟩⟩

example := C14_product_tables (basisSem exFiat exRules) [.leaf cg1, .leaf dg0] shaped_rt 3 exPts none
  [.simplex 1, .simplex 1] [[], []] [] 1 1 exPts_wf (Nat.le_refl 1) rfl rfl rfl (admits_rt 3)
example := C16_hdiv_values (basisSem exFiat exRules) (.leaf cg1) (.leaf dg0) (.simplex 1) 0 1 [] pair_rt shaped_rt rfl
  3 exPts none 1 1 exPts_wf (Nat.le_refl 1) (admits_rt 3)
example := C16_hcurl_values_partial (basisSem exFiat exRules) (.leaf cg1) (.leaf dg0) (.simplex 1) 0 1 [] pair_rt
  shaped_rt rfl 3 exPts none 1 1 exPts_wf (Nat.le_refl 1) (admits_rt 3)
example := C17_rotation (basisSem exFiat exRules) (.leaf cg1) (.leaf dg0) (.simplex 1) 0 1 [] pair_rt rfl rfl shaped_rt
  3 exPts none 1 1 exPts_wf (Nat.le_refl 1) (admits_rt 3)

/-- Two points of the interval. -/
def linePts (cls : PSClass) : PSet ℤ := .points cls [[0], [1]] [⟨0, 2⟩]

theorem linePts_wf (cls : PSClass) : (linePts cls).WF 1 := by
  simp only [linePts, PSet.WF]
  exact ⟨by simp, by decide, 1, by simp⟩

/-- C18 applies to CG1 at any point set class. -/
theorem exFiat_ok (order : Nat) (cls : PSClass) :
    FiatOK exFiat cg1 order (linePts cls) (Cell.dimension (.simplex 1), 0) :=
  ⟨fun _ _ _ h => (by cases h), by simp [linePts, PSet.pts],
    fiatPoly_of rfl (fun _ => exPoly cg1) (exEmb cg1 _) (fun _ _ _ _ => rfl)
      (fun _ => exPoly_degree cg1 (.inl rfl)) (fun _ _ _ _ _ => rfl), by decide, .inl rfl⟩

example := C18_fiat_tables exFiat cg1 3 (linePts .plain) none 1 1 (linePts_wf _) (Nat.le_refl 1) (exFiat_ok 3 _)

/-- C58 applies: CG1 is nodal at the end points (the Gauss-Lobatto-Legendre points of degree one). -/
theorem nodal_cg1 : Nodal exFiat cg1 .gaussLobattoLegendre (linePts .gaussLobattoLegendre) := by
  intro _ _
  refine ⟨⟨_, rfl⟩, rfl, ?_⟩
  intro q i hi x hx
  have hi' : i < 2 := hi
  have hq : q < 2 := by
    have := (List.getElem?_eq_some_iff.1 hx).1
    simpa [linePts, PSet.pts] using this
  have hfn : exFiat.fn cg1 (List.replicate cg1.cell.spatialDim 0) (cg1.cell.dimension, 0) x i [] =
      evalAt x (exPoly cg1 i []) := rfl
  rw [hfn]
  have hq' : q = 0 ∨ q = 1 := by omega
  have hi2 : i = 0 ∨ i = 1 := by omega
  rcases hq' with rfl | rfl <;> rcases hi2 with rfl | rfl <;> cases hx <;> simp [exPoly, cg1, evalAt]

example := C58_identity exFiat .gaussLobattoLegendre cg1 rfl 3 (linePts _) none 1 1 (linePts_wf _) (Nat.le_refl 1)
  (.inl rfl) (exFiat_ok 3 _) nodal_cg1 ⟨_, _, rfl⟩ rfl

example := C58_exact exFiat .gaussLobattoLegendre cg1 3 [[0], [1]] ⟨0, 2⟩ none 1 1 (linePts_wf _) (Nat.le_refl 1)
  (.inl rfl) (exFiat_ok 3 _) rfl

/-- C40 applies: CG1 transformed by the matrix with rows (1, 1) and (0, 1). -/
noncomputable def exMapped : Fiat ℤ :=
  { exFiat with mapped := fun _ => some ⟨2, fun i j => if i ≤ j then 1 else 0⟩ }

example := C40_mapped_tables_partial exMapped cg1 ⟨2, fun i j => if i ≤ j then 1 else 0⟩ rfl 3 (linePts .plain) none 1 1
  (linePts_wf _) (Nat.le_refl 1)
  ⟨fun _ _ _ h => (by cases h), by simp [linePts, PSet.pts],
    fiatPoly_of rfl (fun _ => exPoly cg1) (exEmb cg1 _) (fun _ _ _ _ => rfl)
      (fun _ => exPoly_degree cg1 (.inl rfl)) (fun _ _ _ _ _ => rfl), by decide, .inl rfl⟩

end FInAT.Props
