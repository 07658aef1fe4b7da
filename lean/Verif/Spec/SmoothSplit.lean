import Verif.Spec.Smooth

/-!
# Continuously differentiable functions on two triangles whose common edge is split
-/

namespace FInAT.Spec.Zany

variable {K : Type} [Field K]

/-- The edges are split in two. -/
structure Split.Two (S : Split K) : Prop where
  segments : S.m = 2
  first : S.pt 0 = 0
  last : S.pt 2 = 1
  left : S.pt 1 ≠ 0
  right : S.pt 1 ≠ 1

/-- The values of `u` and `u'` along each segment of the common edge are the same ... -/
def ContinuousOn (S : Split K) (G G' : Tri K) (e e' : Nat) (u u' : Fn 2 K) : Prop :=
  ∀ i < S.m, G.on e (u (.edge e i)) = G'.on e' (u' (.edge e' i))

/-- ... and so are all first derivatives. -/
def SmoothOn (S : Split K) (G G' : Tri K) (e e' : Nat) (u u' : Fn 2 K) : Prop :=
  ContinuousOn S G G' e e' u u' ∧
    ∀ i < S.m, ∀ k < 2, G.on e (D k (u (.edge e i))) = G'.on e' (D k (u' (.edge e' i)))

/-- The point `x₀ + t (x₁ - x₀)` of edge `e`. -/
def Tri.point (G : Tri K) (e : Nat) (t : K) : Nat → K := fun i => G.vert (ends e).1 i + t * G.tangent e i

/-- Where two segments of an edge meet, the first derivatives on both sides are the same. -/
def Tri.Knots (G : Tri K) (S : Split K) (f : Fn 2 K) : Prop :=
  ∀ e < 3, ∀ i, i + 1 < S.m → ∀ k < 2, value (G.point e (S.pt (i + 1))) (D k (f (.edge e i))) =
    value (G.point e (S.pt (i + 1))) (D k (f (.edge e (i + 1))))

/-- The cell is split along the lines from a point `z` in it to the points that split its edges: everywhere on the line
to edge `e` the first derivatives on both sides are the same. -/
def Tri.Joined (G : Tri K) (S : Split K) (z : Nat → K) (f : Fn 2 K) : Prop :=
  ∀ e < 3, ∀ k < 2, trace (G.point e (S.pt 1)) z (D k (f (.edge e 0))) =
    trace (G.point e (S.pt 1)) z (D k (f (.edge e 1)))

/-- The points `y`, `z` and `z'` are on a line, and neither `z` nor `z'` is on the edge `e` (with point `y` on it). -/
def Tri.Through (G : Tri K) (e : Nat) (y z z' : Nat → K) : Prop :=
  G.tangent e 0 * (z 1 - y 1) - G.tangent e 1 * (z 0 - y 0) ≠ 0 ∧
    ∃ r : K, r ≠ 0 ∧ ∀ i < 2, z' i - y i = r * (z i - y i)

end FInAT.Spec.Zany
