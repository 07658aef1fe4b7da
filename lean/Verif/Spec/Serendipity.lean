import Mathlib.Algebra.Order.Ring.Defs
import Mathlib.Algebra.Field.Basic
import Mathlib.Data.Fin.VecNotation
import Mathlib.Algebra.Polynomial.Eval.Defs
import Mathlib.Algebra.Polynomial.Degree.Defs
import Mathlib.Algebra.MvPolynomial.Degrees

/-!
# Specification for direct serendipity elements

Quadrilaterals with the vertex numbering of FIAT (`0, 1, 3, 2` in turn around the cell), nodal
bases and polynomials in two variables. Nothing here refers to the model of the code.
-/

namespace FInAT.Spec.Serendipity

variable {K : Type}

/-- Twice the signed area of a triangle. -/
def area [Field K] (a b c : K × K) : K :=
  (b.1 - a.1) * (c.2 - a.2) - (b.2 - a.2) * (c.1 - a.1)

/-- A strictly convex quadrilateral: going around the vertices `0, 1, 3, 2`, every corner turns in
the same direction. -/
def StrictlyConvex [Field K] [LinearOrder K] (vs : Fin 4 → K × K) : Prop :=
  (0 < area (vs 0) (vs 1) (vs 3) ∧ 0 < area (vs 1) (vs 3) (vs 2) ∧
    0 < area (vs 3) (vs 2) (vs 0) ∧ 0 < area (vs 2) (vs 0) (vs 1)) ∨
  (area (vs 0) (vs 1) (vs 3) < 0 ∧ area (vs 1) (vs 3) (vs 2) < 0 ∧
    area (vs 3) (vs 2) (vs 0) < 0 ∧ area (vs 2) (vs 0) (vs 1) < 0)

/-- A parallelogram: the edges from `0` to `1` and from `2` to `3` are the same vector. -/
def Parallelogram [Field K] (vs : Fin 4 → K × K) : Prop :=
  (vs 1).1 - (vs 0).1 = (vs 3).1 - (vs 2).1 ∧ (vs 1).2 - (vs 0).2 = (vs 3).2 - (vs 2).2

/-- A point strictly inside the quadrilateral: it is on the same side of every edge, going around
the vertices `0, 1, 3, 2`. -/
def Inside [Field K] [LinearOrder K] (vs : Fin 4 → K × K) (p : K × K) : Prop :=
  (0 < area (vs 0) (vs 1) p ∧ 0 < area (vs 1) (vs 3) p ∧ 0 < area (vs 3) (vs 2) p ∧
    0 < area (vs 2) (vs 0) p) ∨
  (area (vs 0) (vs 1) p < 0 ∧ area (vs 1) (vs 3) p < 0 ∧ area (vs 3) (vs 2) p < 0 ∧
    area (vs 2) (vs 0) p < 0)

/-- The functions are dual to the values at the points, in the same order. -/
def Nodal [Field K] (fs : List (K × K → K)) (ps : List (K × K)) : Prop :=
  fs.length = ps.length ∧ ∀ (m n : Nat) f p, fs[m]? = some f → ps[n]? = some p →
    f p = if m = n then 1 else 0

/-- End points of the edges of a quadrilateral. -/
def edgeEnds : Fin 4 → Fin 4 × Fin 4 := ![(0, 1), (2, 3), (0, 2), (1, 3)]

/-- The point that divides the segment from `a` to `b` in the ratio `s : 1 - s`. -/
def between [Field K] (a b : K × K) (s : K) : K × K :=
  ((1 - s) * a.1 + s * b.1, (1 - s) * a.2 + s * b.2)

/-- The other ends of the edges that leave an edge at its first and at its second end. -/
def farEnds : Fin 4 → Fin 4 × Fin 4 := ![(2, 3), (0, 1), (1, 3), (0, 2)]

/-- At a point of edge `e`: the difference by the sum of its distances to the two adjacent edges,
each distance weighted with the length of the edge. -/
def ratio [Field K] (vs : Fin 4 → K × K) (e : Fin 4) (s : K) : K :=
  let a := vs (edgeEnds e).1
  let b := vs (edgeEnds e).2
  let p := between a b s
  (area a p (vs (farEnds e).1) - area p b (vs (farEnds e).2))
    / (area a p (vs (farEnds e).1) + area p b (vs (farEnds e).2))

/-- At a point of edge `e`: the distance to the opposite edge, weighted with its length. -/
def across [Field K] (vs : Fin 4 → K × K) (e : Fin 4) (s : K) : K :=
  area (vs (farEnds e).1) (vs (farEnds e).2) (between (vs (edgeEnds e).1) (vs (edgeEnds e).2) s)

/-- A condition on a quadrilateral for the degree `r`: on no edge are the values of
`ratio ^ (r - 2) / across` at the nodes `1/r, ..., (r-1)/r` those of a polynomial of degree less
than `r - 2`. -/
def EdgeRegular [Field K] (vs : Fin 4 → K × K) (r : Nat) : Prop :=
  ∀ e, ¬ ∃ q : Polynomial K, q.degree < ((r - 2 : Nat) : WithBot Nat) ∧ ∀ k : Nat, 0 < k → k < r →
    q.eval ((k : K) / (r : K)) * across vs e ((k : K) / (r : K))
      = ratio vs e ((k : K) / (r : K)) ^ (r - 2)

/-- The combination of the functions whose coefficients are the values of `g` at the points. -/
def interpolate [Field K] (fs : List (K × K → K)) (ps : List (K × K)) (g : K × K → K)
    (x : K × K) : K :=
  ((List.zip fs ps).map fun q => g q.2 * q.1 x).sum

/-- A polynomial function in two variables of total degree at most `n`. -/
def IsPoly [Field K] (n : Nat) (f : K × K → K) : Prop :=
  ∃ q : MvPolynomial (Fin 2) K, q.totalDegree ≤ n ∧ ∀ x, f x = MvPolynomial.eval ![x.1, x.2] q

/-- The nodes of degree `r` on vertices and edges: the four vertices, then for each edge the
points that divide it into `r` equal parts. -/
def boundaryNodes [Field K] (vs : Fin 4 → K × K) (r : Nat) : List (K × K) :=
  [vs 0, vs 1, vs 2, vs 3] ++ (List.finRange 4).flatMap fun e =>
    (List.range (r - 1)).map fun (k : Nat) =>
      between (vs (edgeEnds e).1) (vs (edgeEnds e).2) (((k : K) + 1) / (r : K))

end FInAT.Spec.Serendipity
