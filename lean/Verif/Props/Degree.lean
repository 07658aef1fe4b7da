import Verif.Lemmas.Degree
import Verif.Props.TabExamples

/-!
# C76: the degree of an element
-/

namespace FInAT.Props

open FInAT Spec Elem MvPolynomial

section
variable {K : Type} [CommRing K]

/-- **C76.** If the functions of the FIAT elements are polynomials of their degrees, then every component of every
basis function of any tree that has a degree is a polynomial of this degree: of total degree at most `degree` on a
simplex, of degree at most `degree` in every coordinate on a quadrilateral or hexahedron, and factor by factor
on a product of cells. -/
theorem C76_degree (Q : Leaf → Nat → List Nat → MvPolynomial ℕ K) (e : Elem) (c : Cell) (t : DegTree)
    (hl : AllLeaves (LeafOfDegree Q) e) (hq : Cubes e) (hc : e.cell = .ok c) (ht : e.degree = .ok t) (i z : List Nat) :
    PolyOfDegree c t (treePoly Q e i z) :=
  treePoly_ofDegree Q e c t hl hq hc ht i z

/-- **C76**, tables: tabulating such an element gives zero for every derivative beyond the degree (of order more than
`degree` on a simplex, more than `degree` times in the same direction on a quadrilateral or hexahedron, beyond the degree of
some factor on a product), at all points. -/
theorem C76_tables [DecidableEq K] (F : Fiat K) (R : Rules K) (Q : Leaf → Nat → List Nat → MvPolynomial ℕ K) (e : Elem) (c : Cell)
    (t : DegTree) (vs : List Nat) (order n : Nat) (p : PSet K) (hs : Shaped e) (hq : Cubes e)
    (hl : AllLeaves (fun l => PlainLeafOK F order l ∧ LeafIsPoly (leafVals F R) Q l) e)
    (hd : AllLeaves (LeafOfDegree Q) e) (hc : e.cell = .ok c) (hv : e.valueShape = .ok vs) (ht : e.degree = .ok t)
    (hw : p.WF n) (hp : PlainPoints p c.spatialDim) :
    Yields (evaluate (basisInterp F R) e order p none) n fun T =>
      ∀ α table, T.get? α = some table → (¬ OfDegree c t fun j => α.getD j 0) → ∀ ρ i z, p.Valid ρ →
        InRange i e.indexShape → InRange z vs → table.eval ρ (i ++ z) = 0 := by
  obtain ⟨T, n', h1, hT⟩ := C14_derivative_of_product F R Q e c vs order n p hs hq hl hc hv hw hp
  refine ⟨T, n', h1, fun α table h hα ρ i z hρ hi hz => ?_⟩
  rw [hT.value α table h ρ i z hρ hi hz, partialD_ofDegree (C76_degree Q e c t hd hq hc ht i z) α hα, map_zero]

end

/-- **C76**: a flattened product has a degree exactly when all factors have the same one. -/
theorem C76_flattened (fs : List Elem) (ds : List DegTree) (h : Elem.degreeL fs = .ok ds) (t : DegTree) :
    (Elem.flattened (.tensorProduct fs)).degree = .ok t ↔ ds ≠ [] ∧ ∀ d ∈ ds, d = t := by
  simp only [Elem.degree, h, bind, Except.bind, pure, Except.pure]
  constructor
  · exact fun h => uniqueOf_mem h
  · rintro ⟨hne, hall⟩
    cases ds with
    | nil => exact absurd rfl hne
    | cons d ds =>
      have hd := hall d List.mem_cons_self
      subst hd
      rw [uniqueOf, if_pos]
      simp only [List.all_eq_true, decide_eq_true_eq]
      exact fun b hb => hall b (List.mem_cons_of_mem _ hb)

/-- **C76**: otherwise asking for the degree raises `ValueError`. -/
theorem C76_flattened_raises (fs : List Elem) (ds : List DegTree) (h : Elem.degreeL fs = .ok ds) (d d' : DegTree)
    (hd : d ∈ ds) (hd' : d' ∈ ds) (hne : d ≠ d') :
    (Elem.flattened (.tensorProduct fs)).degree = .error .valueError := by
  simp only [Elem.degree, h, bind, Except.bind, pure, Except.pure]
  cases ds with
  | nil => simp at hd
  | cons a l =>
    rw [uniqueOf, if_neg]
    simp only [List.all_eq_true, decide_eq_true_eq]
    intro hall
    apply hne
    have key : ∀ x ∈ a :: l, x = a := fun x hx => by
      rcases List.mem_cons.1 hx with rfl | hx
      · rfl
      · exact hall x hx
    rw [key d hd, key d' hd']

/-! ### Examples -/

namespace DegreeExample


theorem leaf_ofDegree (l : Leaf) (hl : l = cg1 ∨ l = cg2 ∨ l = dg0) : LeafOfDegree exPoly l := by
  refine ⟨exPoly_leaf l hl, fun i z m hm => ?_⟩
  have h := (le_totalDegree hm).trans (exPoly_degree l hl i z)
  have hc : l.cell = .simplex 1 := by rcases hl with rfl | rfl | rfl <;> rfl
  rw [hc]
  simp only [OfDegree, List.range_one, List.map_cons, List.map_nil, List.sum_cons, List.sum_nil, Nat.add_zero]
  refine Nat.le_trans ?_ h
  by_cases h0 : m 0 = 0
  · omega
  · exact Finset.single_le_sum (f := fun j => m j) (fun _ _ => Nat.zero_le _) (Finsupp.mem_support_iff.2 h0)

/-- The lowest-order H(div) element of a square (`RTCF`), flattened: the sum of two wrapped products of different degrees. -/
def rtcf : Elem := .flattened (.enriched [.hdiv (.tensorProduct [.leaf cg1, .leaf dg0]),
  .hdiv (.tensorProduct [.leaf dg0, .leaf cg1])])

theorem rtcf_cubes : Cubes rtcf := by
  refine ⟨⟨⟨trivial, trivial, trivial⟩, ⟨trivial, trivial, trivial⟩, trivial⟩, ?_⟩
  intro c hc
  have : c = .prod [.simplex 1, .simplex 1] := by
    have h : (Except.ok (.prod [.simplex 1, .simplex 1]) : Except Err Cell) = .ok c := by
      rw [← hc]; decide +kernel
    cases h; rfl
  subst this
  exact ⟨Nat.le_refl 1, Nat.le_refl 1, trivial⟩

/-- It has degree one: every component of its functions has degree at most one in each coordinate. -/
example (i z : List Nat) : PolyOfDegree .quad (.leaf 1) (treePoly exPoly rtcf i z) := by
  have h1 := leaf_ofDegree cg1 (.inl rfl)
  have h0 := leaf_ofDegree dg0 (.inr (.inr rfl))
  exact C76_degree exPoly rtcf .quad (.leaf 1) ⟨⟨h1, h0, trivial⟩, ⟨h0, h1, trivial⟩, trivial⟩ rtcf_cubes rfl rfl i z

/-- Second derivatives of `Q2` exist in each direction, third ones vanish. -/
example (order : Nat) : Yields (evaluate (basisInterp exFiat exRules) q2 order exPts none) 1 fun T =>
    ∀ α table, T.get? α = some table → (¬ OfDegree .quad (.leaf 2) fun j => α.getD j 0) → ∀ ρ i z, exPts.Valid ρ →
      InRange i [3, 3] → InRange z [] → table.eval ρ (i ++ z) = 0 := by
  have h := exLeaf order cg2 (.inr (.inl rfl))
  have h2 := leaf_ofDegree cg2 (.inr (.inl rfl))
  have hq : Cubes q2 := cubes_vec.1
  have hs : Shaped q2 := shaped_enr q2 (by simp [enr])
  exact C76_tables exFiat exRules exPoly q2 .quad (.leaf 2) [] order 1 exPts hs hq ⟨h, h, trivial⟩ ⟨h2, h2, trivial⟩ rfl rfl rfl
    exPts_wf exPts_plain

example : (¬ OfDegree .quad (.leaf 2) fun j => [3, 0].getD j 0) ∧ OfDegree .quad (.leaf 2) fun j => [2, 2].getD j 0 := by
  simp [OfDegree, largest]

/-- `CG1 x DG0` on a square has no degree. -/
example : (Elem.flattened (.tensorProduct [.leaf cg1, .leaf dg0])).degree = .error .valueError :=
  C76_flattened_raises [.leaf cg1, .leaf dg0] _ rfl (.leaf 1) (.leaf 0) (by simp [cg1, dg0]) (by simp [cg1, dg0]) (by simp)

end DegreeExample

end FInAT.Props
