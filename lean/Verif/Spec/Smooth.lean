import Verif.Spec.Zany
import Mathlib.Data.Real.Basic

/-!
# Continuously differentiable functions on two triangles with a common edge
-/

namespace FInAT.Spec.Zany

open Finset

variable {K : Type} [Field K]

/-- The function with coefficients `c` in the basis `ψ`. -/
noncomputable def combine (n : Nat) (c : Nat → K) (ψ : Nat → Fn 2 K) : Fn 2 K := ∑ i ∈ range n, c i • ψ i

/-- Edge `e` of triangle `G` is edge `e'` of triangle `G'`: they have the same end points in the same order (in a
mesh, the vertices of each cell are ordered by their global numbers), and both triangles have the same cell sizes
at these points, the same length and the same factor for integrals over the edge. -/
structure SharedEdge (G G' : Tri K) (e e' : Nat) : Prop where
  left : e < 3
  right : e' < 3
  start : G.vert (ends e).1 = G'.vert (ends e').1
  stop : G.vert (ends e).2 = G'.vert (ends e').2
  size_start : G.h (ends e).1 = G'.h (ends e').1
  size_stop : G.h (ends e).2 = G'.h (ends e').2
  length : G.len e = G'.len e'
  factor : G.scale e = G'.scale e'

/-- The coefficients of the two cells agree for the `w` degrees of freedom at each of the two vertices ... -/
def SameAtEnds (w e e' : Nat) (c c' : Nat → K) : Prop :=
  ∀ k < w, c ((ends e).1 * w + k) = c' ((ends e').1 * w + k) ∧ c ((ends e).2 * w + k) = c' ((ends e').2 * w + k)

/-- ... and for the `m` degrees of freedom of the edge, which follow those at vertices. -/
def SameOnEdge (w m e e' : Nat) (c c' : Nat → K) : Prop := ∀ k < m, c (3 * w + e * m + k) = c' (3 * w + e' * m + k)

/-- The values of `u` and `u'` along the common edge are the same ... -/
def Continuous (G G' : Tri K) (e e' : Nat) (u u' : Fn 2 K) : Prop :=
  G.on e (u (.edge e 0)) = G'.on e' (u' (.edge e' 0))

/-- ... and so are all first derivatives. -/
def Smooth (G G' : Tri K) (e e' : Nat) (u u' : Fn 2 K) : Prop :=
  Continuous G G' e e' u u' ∧ ∀ i < 2, G.on e (D i (u (.edge e 0))) = G'.on e' (D i (u' (.edge e' 0)))

end FInAT.Spec.Zany
