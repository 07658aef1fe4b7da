import Verif.Lemmas.Serendipity.Regular
import Verif.Lemmas.Serendipity.Layout
import Verif.Lemmas.Serendipity.Special
import Verif.Model.Serendipity.Element
import Verif.Spec.Dofs
import Mathlib.Data.Rat.Defs
import Mathlib.Algebra.Order.Ring.Rat
import Mathlib.Tactic.NormNum

/-!
# Direct serendipity elements: layout, Newton interpolation, nodal bases, derivative cache
-/

set_option linter.unusedSectionVars false

namespace FInAT.Props

open FInAT FInAT.Serendipity FInAT.Spec FInAT.Spec.Serendipity
open Polynomial

/-! ## C41 -/

/-- C41, numbering: in every degree `entity_dofs` numbers the entities of a quadrilateral, uses
every number below the space dimension once, and puts one dof on a vertex, `degree - 1` on an edge
and `(degree - 2) (degree - 3) / 2` inside. -/
theorem C41_layout (r : Nat) (hr : 1 ≤ r) :
    Partition (entityDofs r) (spaceDimension r) ∧
    Covers (entityDofs r) [(.int 0, 4), (.int 1, 4), (.int 2, 1)] ∧
    (∀ v, v < 4 → (dofsOn (entityDofs r) (.int 0) v).length = 1) ∧
    (∀ e, e < 4 → (dofsOn (entityDofs r) (.int 1) e).length = r - 1) ∧
    (dofsOn (entityDofs r) (.int 2) 0).length = (r - 2) * (r - 3) / 2 :=
  layout r hr

/-- C41, the basis: for every quadrilateral there are as many functions as the space dimension
says. -/
theorem C41_basis {K : Type} [Field K] (vs : Fin 4 → K × K) (r : Nat) (hr : 1 ≤ r) :
    (ds vs r).length = spaceDimension r :=
  ds_length vs r hr

/-- C41, the basis follows the numbering: the functions numbered with the dofs of a vertex, of an
edge and of the inside are those whose nodes are this vertex, divide this edge into equal parts, and
are not on the boundary. -/
theorem C41_nodes {K : Type} [Field K] [LinearOrder K] [IsStrictOrderedRing K]
    (vs : Fin 4 → K × K) (hc : StrictlyConvex vs) (r : Nat) (hr : 1 ≤ r) :
    (∀ v : Fin 4, ∃ i, dofsOn (entityDofs r) (.int 0) v = [i] ∧ (dsrNodes vs r)[i]? = some (vs v)) ∧
    (∀ e : Fin 4, (dofsOn (entityDofs r) (.int 1) e).map (fun i => (dsrNodes vs r)[i]?)
      = (List.range (r - 1)).map fun (k : Nat) => some
        (between (vs (edgeEnds e).1) (vs (edgeEnds e).2) (((k : K) + 1) / (r : K)))) ∧
    (∀ i ∈ dofsOn (entityDofs r) (.int 2) 0, ∃ p, (dsrNodes vs r)[i]? = some p ∧ Inside vs p) :=
  nodes_layout vs hc r hr

/-! ## C42 -/

/-- C42: for distinct nodes, the Newton polynomial has the given values at the nodes. -/
theorem C42_interpolates {K : Type} [Field K] (nodes values : List K) (hd : nodes.Nodup)
    (i : Nat) (s v : K) (hs : nodes[i]? = some s) (hv : values[i]? = some v) :
    newtonPoly nodes values s = v := by
  obtain ⟨hi, rfl⟩ := List.getElem?_eq_some_iff.1 hs
  obtain ⟨hj, rfl⟩ := List.getElem?_eq_some_iff.1 hv
  have := newtonPoly_interpolates nodes values hd i hi
  rwa [List.getD_eq_getElem _ _ hi, List.getD_eq_getElem _ _ hj] at this

/-- C42: it is a polynomial of degree less than the number of nodes. -/
theorem C42_degree {K : Type} [Field K] (nodes values : List K) :
    ∃ q : K[X], q.degree < nodes.length ∧ ∀ s, newtonPoly nodes values s = q.eval s :=
  newtonPoly_degree nodes values

/-- C42: hence it is the value of every polynomial of such a degree with these values. -/
theorem C42_unique {K : Type} [Field K] (nodes : List K) (hd : nodes.Nodup) (q : K[X])
    (hq : q.degree < nodes.length) (s : K) :
    newtonPoly nodes (nodes.map fun t => q.eval t) s = q.eval s :=
  newtonPoly_unique nodes hd q hq s

/-! ## C43 -/

/-- C43: on every strictly convex quadrilateral the functions of degree one are dual to the values
at the vertices. -/
theorem C43_nodal {K : Type} [Field K] [LinearOrder K] [IsStrictOrderedRing K]
    (vs : Fin 4 → K × K) (hc : StrictlyConvex vs) :
    Spec.Serendipity.Nodal (ds vs 1) [vs 0, vs 1, vs 2, vs 3] :=
  ds1_nodal vs hc

/-- C43: along an edge from `a` to `b` the function of `a` goes from one to zero linearly, that of
`b` from zero to one, and the others are zero. -/
theorem C43_edges {K : Type} [Field K] [LinearOrder K] [IsStrictOrderedRing K]
    (vs : Fin 4 → K × K) (hc : StrictlyConvex vs) (e v : Fin 4) (f : K × K → K)
    (hf : (ds vs 1)[v.val]? = some f) (s : K) (h0 : 0 ≤ s) (h1 : s ≤ 1) :
    f (between (vs (edgeEnds e).1) (vs (edgeEnds e).2) s)
      = if v = (edgeEnds e).1 then 1 - s else if v = (edgeEnds e).2 then s else 0 :=
  ds1_edges vs hc e v f hf s h0 h1

/-- C43: at every point of the plane, the interpolant of an affine function is this function; in
particular the four functions sum to one. -/
theorem C43_affine {K : Type} [Field K] [LinearOrder K] [IsStrictOrderedRing K]
    (vs : Fin 4 → K × K) (hc : StrictlyConvex vs) (a b c : K) (x : K × K) :
    interpolate (ds vs 1) [vs 0, vs 1, vs 2, vs 3] (fun p => a + b * p.1 + c * p.2) x
      = a + b * x.1 + c * x.2 :=
  ds1_affine vs hc a b c x

/-! ## C44 -/

/-- C44: in degree `r ≥ 2` the functions are dual to the values at their nodes exactly on the
quadrilaterals that satisfy the condition `EdgeRegular`. -/
theorem C44_nodal_iff {K : Type} [Field K] [LinearOrder K] [IsStrictOrderedRing K]
    (vs : Fin 4 → K × K) (hc : StrictlyConvex vs) (r : Nat) (hr : 2 ≤ r) :
    Spec.Serendipity.Nodal (ds vs r) (dsrNodes vs r) ↔ EdgeRegular vs r := by
  obtain ⟨σ, h⟩ := StrictlyConvex.oriented hc
  rw [ds, if_neg (by omega), ← h.regular_iff hr]
  exact ⟨h.normalised_of_nodal hr, h.dsr_nodal hr⟩

/-- C44, partial: on every strictly convex quadrilateral the functions of degree two and three are
dual to the values at their nodes. Missing: higher degrees, where it is false on some
quadrilaterals (`C44_degree_four`) and true on those of `C44_nodal_iff`. -/
theorem C44_nodal_partial {K : Type} [Field K] [LinearOrder K] [IsStrictOrderedRing K]
    (vs : Fin 4 → K × K) (hc : StrictlyConvex vs) (r : Nat) (hr : r = 2 ∨ r = 3) :
    Spec.Serendipity.Nodal (ds vs r) (dsrNodes vs r) := by
  rw [C44_nodal_iff vs hc r (by omega)]
  obtain ⟨σ, h⟩ := StrictlyConvex.oriented hc
  rcases hr with rfl | rfl
  · exact h.regular_two
  · exact h.regular_three

/-- C44, parallelograms: here the functions of every degree are dual to the values at their nodes. -/
theorem C44_parallelogram {K : Type} [Field K] [LinearOrder K] [IsStrictOrderedRing K]
    (vs : Fin 4 → K × K) (hc : StrictlyConvex vs) (hp : Parallelogram vs) (r : Nat) (hr : 2 ≤ r) :
    Spec.Serendipity.Nodal (ds vs r) (dsrNodes vs r) := by
  rw [C44_nodal_iff vs hc r hr]
  obtain ⟨σ, h⟩ := StrictlyConvex.oriented hc
  exact parallelogram_regular h hp hr

/-- C44 is false in degree four: there is a strictly convex quadrilateral with vertices
`(0, 0), (1, 0), (0, 9), (p, 1)` on which the functions are not dual to the values at their nodes
(the code divides by the value of a function at its node, which is zero there). -/
theorem C44_degree_four : ∃ vs : Fin 4 → ℝ × ℝ, StrictlyConvex vs ∧
    ¬ Spec.Serendipity.Nodal (ds vs 4) (dsrNodes vs 4) :=
  ⟨badQuad, bad_convex, fun h =>
    bad_not_regular ((C44_nodal_iff badQuad bad_convex 4 (by omega)).1 h)⟩

/-- C44, the nodes: the vertices, the points that divide the edges into `r` equal parts, and
`(r - 2) (r - 3) / 2` different points strictly inside. -/
theorem C44_nodes {K : Type} [Field K] [LinearOrder K] [IsStrictOrderedRing K]
    (vs : Fin 4 → K × K) (hc : StrictlyConvex vs) (r : Nat) :
    ∃ inner, dsrNodes vs r = boundaryNodes vs r ++ inner ∧
      inner.length = (r - 2) * (r - 3) / 2 ∧ inner.Nodup ∧ ∀ p ∈ inner, Inside vs p :=
  nodes_split vs hc r

/-! ## C45 -/

/-- C45: whatever tabulations were asked for before, a tabulation has exactly the multi-indices of
length two and order at most `order`, and under each of them the translations of the derivatives of
the basis functions. -/
theorem C45_history {X E G : Type} [DecidableEq X] (diff : E → List X → List Nat → E)
    (phis : List E) (xx : List X) (history : List (Nat × (E → G))) (order : Nat) (mapper : E → G)
    (alpha : List Nat) :
    let cache := history.foldl
      (fun c q => (Serendipity.basisEvaluation diff phis xx c q.1 q.2).2) ([] : DerivCache X E)
    (Serendipity.basisEvaluation diff phis xx cache order mapper).1.get? alpha
      = if alpha.length = 2 ∧ alpha.sum ≤ order
        then some (phis.map fun phi => mapper (diff phi xx alpha)) else none :=
  evaluation_history diff phis xx history order mapper alpha

/-- C45: hence a tabulation is the same as on a new element, entry by entry and in the same
order. -/
theorem C45_fresh {X E G : Type} [DecidableEq X] (diff : E → List X → List Nat → E)
    (phis : List E) (xx : List X) (history : List (Nat × (E → G))) (order : Nat)
    (mapper : E → G) :
    let cache := history.foldl
      (fun c q => (Serendipity.basisEvaluation diff phis xx c q.1 q.2).2) ([] : DerivCache X E)
    (Serendipity.basisEvaluation diff phis xx cache order mapper).1
      = (Serendipity.basisEvaluation diff phis xx [] order mapper).1 :=
  evaluation_fresh diff phis xx history order mapper

/-- C45: the derivatives do not depend on the symbolic package. -/
theorem C45_engines {X E : Type} (D : E → X → E) (expr : E) (xx : List X) (alpha : List Nat) :
    diffSympy D expr xx alpha = diffSymengine D expr xx alpha :=
  diff_engines D expr xx alpha

/-! ## Examples -/

namespace SerendipityExamples

/-- The cell of the test suite. -/
def cell : Fin 4 → ℚ × ℚ := ![(0, 0), (1, 0), (1 / 10, 11 / 10), (95 / 100, 101 / 100)]

theorem cell_convex : StrictlyConvex cell := by
  left; unfold cell area; decide +kernel

/-- The same cell seen from the other side. -/
def turned : Fin 4 → ℚ × ℚ := ![(0, 0), (1 / 10, 11 / 10), (1, 0), (95 / 100, 101 / 100)]

theorem turned_convex : StrictlyConvex turned := by
  right; unfold turned area; decide +kernel

/-- A parallelogram. -/
def slanted : Fin 4 → ℚ × ℚ := ![(0, 0), (1, 0), (1 / 2, 1), (3 / 2, 1)]

theorem slanted_convex : StrictlyConvex slanted := by
  left; unfold slanted area; decide +kernel

theorem slanted_parallelogram : Parallelogram slanted := by
  unfold slanted Parallelogram; decide +kernel

/-- The cell of the test suite meets the condition of `C44_nodal_iff` in degree four, and it is not
a parallelogram. -/
theorem cell_regular : EdgeRegular cell 4 := by
  obtain ⟨σ, h⟩ := StrictlyConvex.oriented cell_convex
  rw [← h.regular_iff (by omega)]
  unfold Normalised
  decide +kernel

example : Spec.Serendipity.Nodal (ds cell 4) (dsrNodes cell 4) :=
  (C44_nodal_iff cell cell_convex 4 (by omega)).2 cell_regular

example : Spec.Serendipity.Nodal (ds turned 3) (dsrNodes turned 3) :=
  C44_nodal_partial turned turned_convex 3 (Or.inr rfl)

example : Spec.Serendipity.Nodal (ds slanted 7) (dsrNodes slanted 7) :=
  C44_parallelogram slanted slanted_convex slanted_parallelogram 7 (by omega)

example : spaceDimension 7 = 38 ∧ dofsOn (entityDofs 7) (.int 1) 3 = [22, 23, 24, 25, 26, 27]
    ∧ dofsOn (entityDofs 7) (.int 2) 0 = List.range' 28 10 := by decide

example : newtonPoly [(0 : ℚ), 1, 3] [1, 2, 10] 2 = 5 := by decide +kernel

/-- Degree one, in the middle of an edge and inside. -/
example : (phi1 cell 0 (1 / 2, 0), phi1 cell 1 (1 / 2, 0), phi1 cell 2 (1 / 2, 0))
    = (1 / 2, 1 / 2, 0) ∧ phi1 cell 0 (1 / 2, 1 / 2) ≠ 0 := by decide +kernel

/-- A second request finds the derivatives of the first in the cache and translates them with its
own bindings. -/
example :
    let ev := fun c n => Serendipity.basisEvaluation (X := Nat) (E := Nat × List Nat) (G := Nat × List Nat)
      (fun e _ alpha => (e.1, alpha)) [(10, []), (20, [])] [0, 1] c 1 (fun e => (e.1 + n, e.2))
    (ev (ev [] 100).2 7).1.get? [0, 1] = some [(17, [0, 1]), (27, [0, 1])] ∧
    (ev (ev [] 100).2 7).2.length = 3 := by decide

end SerendipityExamples

end FInAT.Props
