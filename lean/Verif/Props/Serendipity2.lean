import Verif.Lemmas.Serendipity.Trace
import Verif.Props.Serendipity
import Mathlib.Data.Rat.Defs
import Mathlib.Algebra.Order.Ring.Rat

/-!
# Direct serendipity elements: traces on edges, continuity, polynomials
-/

namespace FInAT.Props

open FInAT FInAT.Serendipity FInAT.Spec FInAT.Spec.Serendipity
open Polynomial

/-! ## C67 -/

/-- C67, in every degree and on every strictly convex quadrilateral: a basis function whose node is
not on an edge is zero on all of this edge. -/
theorem C67_vanish {K : Type} [Field K] [LinearOrder K] [IsStrictOrderedRing K]
    (vs : Fin 4 → K × K) (hc : StrictlyConvex vs) (r : Nat) (hr : 1 ≤ r) (e : Fin 4)
    (m : Nat) (f : K × K → K) (p : K × K) (hf : (ds vs r)[m]? = some f)
    (hp : (dsrNodes vs r)[m]? = some p)
    (hoff : ∀ s, 0 ≤ s → s ≤ 1 → p ≠ between (vs (edgeEnds e).1) (vs (edgeEnds e).2) s)
    (s : K) (h0 : 0 ≤ s) (h1 : s ≤ 1) :
    f (between (vs (edgeEnds e).1) (vs (edgeEnds e).2) s) = 0 :=
  ds_vanish vs hc r hr e m f p hf hp hoff s h0 h1

/-- C67, partial, traces: for degree one and two, and for every degree on parallelograms, the
interpolant of `g` is along an edge the polynomial of degree `r` with the values of `g` at the
`r + 1` points that divide the edge into equal parts. -/
theorem C67_trace_partial {K : Type} [Field K] [LinearOrder K] [IsStrictOrderedRing K]
    (vs : Fin 4 → K × K) (hc : StrictlyConvex vs) (r : Nat)
    (hr : r = 1 ∨ r = 2 ∨ 2 ≤ r ∧ Parallelogram vs) (e : Fin 4) (g : K × K → K) :
    ∃ q : K[X], q.natDegree ≤ r ∧
      (∀ k : Nat, k ≤ r → q.eval ((k : K) / (r : K))
        = g (between (vs (edgeEnds e).1) (vs (edgeEnds e).2) ((k : K) / (r : K)))) ∧
      ∀ s, 0 ≤ s → s ≤ 1 → interpolate (ds vs r) (dsrNodes vs r) g
        (between (vs (edgeEnds e).1) (vs (edgeEnds e).2) s) = q.eval s :=
  Conforming.trace hr hc e g

/-- C67, partial, continuity: for degree one and two, and for every degree between parallelograms,
the interpolants of `g` on two cells agree at every point of an edge that the cells share, whatever
its numbers and directions in the two cells. Missing: other cells in degree three and more, where it
is false (`C67_degree_three`). -/
theorem C67_continuous_partial {K : Type} [Field K] [LinearOrder K] [IsStrictOrderedRing K]
    (vs ws : Fin 4 → K × K) (hv : StrictlyConvex vs) (hw : StrictlyConvex ws) (r : Nat)
    (hr : r = 1 ∨ r = 2 ∨ 2 ≤ r ∧ Parallelogram vs ∧ Parallelogram ws) (e o : Fin 4)
    (hshare : (vs (edgeEnds e).1 = ws (edgeEnds o).1 ∧ vs (edgeEnds e).2 = ws (edgeEnds o).2) ∨
      (vs (edgeEnds e).1 = ws (edgeEnds o).2 ∧ vs (edgeEnds e).2 = ws (edgeEnds o).1))
    (g : K × K → K) (s : K) (h0 : 0 ≤ s) (h1 : s ≤ 1) :
    let x := between (vs (edgeEnds e).1) (vs (edgeEnds e).2) s
    interpolate (ds vs r) (dsrNodes vs r) g x = interpolate (ds ws r) (dsrNodes ws r) g x :=
  Conforming.continuous (hr.imp_right fun h => h.imp_right fun h => ⟨h.1, h.2.1⟩) hv
    (hr.imp_right fun h => h.imp_right fun h => ⟨h.1, h.2.2⟩) hw e o hshare g s h0 h1

namespace SerendipityExamples

/-- The unit square. -/
def upper : Fin 4 → ℚ × ℚ := ![(0, 0), (1, 0), (0, 1), (1, 1)]

/-- A trapezoid below it, seen from the other side. -/
def lower : Fin 4 → ℚ × ℚ := ![(0, 0), (1, 0), (0, -1), (1, -2)]

theorem upper_convex : StrictlyConvex upper := by
  left; unfold upper area; decide +kernel

theorem lower_convex : StrictlyConvex lower := by
  right; unfold lower area; decide +kernel

theorem upper_parallelogram : Parallelogram upper := by
  unfold upper Parallelogram; decide +kernel

end SerendipityExamples

open SerendipityExamples in
/-- C67 is false in degree three: two strictly convex cells share an edge, and the interpolants of
the same values differ in the middle of this edge. -/
theorem C67_degree_three : ∃ (vs ws : Fin 4 → ℚ × ℚ) (g : ℚ × ℚ → ℚ) (x : ℚ × ℚ),
    StrictlyConvex vs ∧ StrictlyConvex ws ∧ vs 0 = ws 0 ∧ vs 1 = ws 1 ∧
    x = between (vs 0) (vs 1) (1 / 2) ∧
    interpolate (ds vs 3) (dsrNodes vs 3) g x ≠ interpolate (ds ws 3) (dsrNodes ws 3) g x :=
  ⟨upper, lower, fun p => if p = (1 / 3, 0) then 1 else 0, between (0, 0) (1, 0) (1 / 2),
    upper_convex, lower_convex, rfl, rfl, rfl, by decide +kernel⟩

/-! ## C68 -/

/-- C68, partial: for degree one and two, and for every degree on parallelograms, the interpolant of
a polynomial of degree `r` is this polynomial at every point of the plane, so the span of the basis
contains all polynomials of degree `r`. Missing: other cells in degree three and more, where it is
false (`C68_degree_three`). -/
theorem C68_reproduces_partial {K : Type} [Field K] [LinearOrder K] [IsStrictOrderedRing K]
    (vs : Fin 4 → K × K) (hc : StrictlyConvex vs) (r : Nat)
    (hr : r = 1 ∨ r = 2 ∨ 2 ≤ r ∧ Parallelogram vs) (f : K × K → K) (hf : IsPoly r f)
    (x : K × K) : interpolate (ds vs r) (dsrNodes vs r) f x = f x :=
  Conforming.reproduces hr hc hf x

open SerendipityExamples in
/-- C68 is false in degree three: on some strictly convex cell the polynomial `x³` is not in the
span of the basis. -/
theorem C68_degree_three : ∃ vs : Fin 4 → ℚ × ℚ, StrictlyConvex vs ∧
    ¬ ∃ cs : List ℚ, cs.length = (ds vs 3).length ∧
      ∀ x, x.1 ^ 3 = ((List.zip cs (ds vs 3)).map fun q => q.1 * q.2 x).sum := by
  refine ⟨lower, lower_convex, ?_⟩
  rintro ⟨cs, hl, hF⟩
  have := interpolate_span (C44_nodal_partial lower lower_convex 3 (Or.inr rfl)) hl hF (1 / 2, -1 / 2)
  revert this
  decide +kernel

/-! ## Examples -/

namespace SerendipityExamples

/-- Cells of degree two that share an edge, which has other numbers and the other direction in the
second cell; neither is a parallelogram. -/
def beside : Fin 4 → ℚ × ℚ := ![(2, 0), (5 / 2, 2), (1, 0), (95 / 100, 101 / 100)]

theorem beside_convex : StrictlyConvex beside := by
  left; unfold beside area; decide +kernel

example (g : ℚ × ℚ → ℚ) (s : ℚ) (h0 : 0 ≤ s) (h1 : s ≤ 1) :
    let x := between (1, 0) (95 / 100, 101 / 100) s
    interpolate (ds cell 2) (dsrNodes cell 2) g x = interpolate (ds beside 2) (dsrNodes beside 2) g x :=
  C67_continuous_partial cell beside cell_convex beside_convex 2 (Or.inr (Or.inl rfl)) 3 1
    (Or.inl ⟨rfl, rfl⟩) g s h0 h1

example (g : ℚ × ℚ → ℚ) (s : ℚ) (h0 : 0 ≤ s) (h1 : s ≤ 1) :
    let x := between (0, 0) (1, 0) s
    interpolate (ds upper 6) (dsrNodes upper 6) g x
      = interpolate (ds slanted 6) (dsrNodes slanted 6) g x :=
  C67_continuous_partial upper slanted upper_convex slanted_convex 6
    (Or.inr (Or.inr ⟨by omega, upper_parallelogram, slanted_parallelogram⟩)) 0 0
    (Or.inl ⟨rfl, rfl⟩) g s h0 h1

/-- A polynomial of degree five is reproduced on a parallelogram. -/
example (x : ℚ × ℚ) : interpolate (ds slanted 5) (dsrNodes slanted 5) (fun x => x.1 ^ 5) x = x.1 ^ 5 :=
  C68_reproduces_partial slanted slanted_convex 5
    (Or.inr (Or.inr ⟨by omega, slanted_parallelogram⟩)) (fun x => x.1 ^ 5)
    ⟨MvPolynomial.X 0 ^ 5, by simp, fun x => by simp⟩ x

/-- The function of the node `(1 / 3, 0)` is zero on the edge opposite to its own. -/
example (s : ℚ) (h0 : 0 ≤ s) (h1 : s ≤ 1) :
    edgeBf lower 3 0 0 (between (0, -1) (1, -2) s) = 0 :=
  C67_vanish lower lower_convex 3 (by omega) 1 4 (edgeBf lower 3 0 0) (1 / 3, 0) rfl (by decide +kernel)
    (fun t h0 h1 h => by
      have h2 := congrArg Prod.snd h
      simp [between, edgeEnds, lower] at h2
      linarith) s h0 h1

end SerendipityExamples

end FInAT.Props
